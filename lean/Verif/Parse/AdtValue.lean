import Verif.Parse.AdtMove

/-!
# Queries by value (C79)

`zpl_adt_query` (adt.c:114-217) with parts `[field=value]` and `[value]`, modelled in `Verif/Parse/Adt.lean`.

How the numbers of the tree are printed is a parameter (`num`): it gives the 4096 bytes the number was printed to.
-/

namespace Zpl.Adt

open Str Print

/-! ## Specification -/

/-- The node is a value that reads `v`: a string with that text, or a number that is printed so. -/
def Tree.reads (num : Value → List Byte) : Tree → List Byte → Bool
  | .leaf _ (.str _ (some s)), v => decide (s = v)
  | .leaf _ (.int i), v => decide ((num (.int i)).takeWhile (· ≠ 0) = v)
  | .leaf _ (.real i), v => decide ((num (.real i)).takeWhile (· ≠ 0) = v)
  | _, _ => false

/-- The node is an object that has a member called `f` that reads `v`. -/
def Tree.hasMember (num : Value → List Byte) (f v : List Byte) : Tree → Bool
  | .branch _ false ts => ts.any fun m => decide (m.name = some f) && m.reads num v
  | _ => false

/-- A string of the tree is a text; a number is printed with a terminator. -/
def Tree.Legible (num : Value → List Byte) : Tree → Prop
  | .leaf _ (.str _ (some s)) => Text s
  | .leaf _ (.int i) => 0 ∈ num (.int i)
  | .leaf _ (.real i) => 0 ∈ num (.real i)
  | _ => True

/-- A text that can stand in brackets: no `/` or `]`. -/
def Word (s : List Byte) : Prop := ∀ c ∈ s, c ≠ 0 ∧ c ≠ 0x2f#8 ∧ c ≠ 0x5d#8

/-- `[f=v]` -/
def fieldPart (f v : List Byte) : List Byte := 0x5b#8 :: (f ++ 0x3d#8 :: (v ++ [0x5d#8]))

/-- `[v]` -/
def valuePart (v : List Byte) : List Byte := 0x5b#8 :: (v ++ [0x5d#8])

/-- The part `seg` of a query leads from the node `n` to `found` (a path; `none` is nothing), and what follows after a `/` is looked up from there. -/
def LooksUp (pf : FloatPrinter) (num : Value → List Byte) (n : Node) (seg : List Byte) (found : Option (List Nat)) : Prop :=
  ∀ buf : List Byte, buf.length = 65536 → (∀ rest, query pf num buf (some n) (seg ++ 0 :: rest) = .ok found) ∧
    ∀ u rest, match found with
      | none => query pf num buf (some n) (seg ++ 0x2f#8 :: (u ++ 0 :: rest)) = .ok none
      | some f => ∃ buf' m, buf'.length = 65536 ∧ at? n f = some m ∧
          query pf num buf (some n) (seg ++ 0x2f#8 :: (u ++ 0 :: rest)) = (query pf num buf' (some m) (u ++ 0 :: rest)).map (Option.map (f ++ ·))

/-! ## Lemmas -/

theorem text_cut {b : List Byte} (h : 0 ∈ b) : ∃ t r, b = t ++ 0 :: r ∧ Text t ∧ t = b.takeWhile (· ≠ 0) := by
  induction b with
  | nil => simp at h
  | cons c b ih =>
    by_cases hc : c = 0
    · subst hc
      exact ⟨[], b, rfl, text_nil, by simp⟩
    · obtain ⟨t, r, e, ht, e2⟩ := ih ((List.mem_cons.1 h).resolve_left (Ne.symm hc))
      refine ⟨c :: t, r, by rw [e]; rfl, Text.cons.2 ⟨hc, ht⟩, ?_⟩
      rw [List.takeWhile_cons, if_pos (by simpa using hc), ← e2]

theorem strcmp_eq {s q : List Byte} (hs : Text s) (hq : Text q) (r1 r2 : List Byte) : ∃ v, strcmp (s ++ 0 :: r1) (q ++ 0 :: r2) = .ok v ∧ (v == 0) = decide (s = q) := by
  obtain ⟨v, e, -, h, -⟩ := strcmp_ok hs hq r1 r2
  refine ⟨v, e, ?_⟩
  by_cases h' : s = q
  · simp [h.2 h', h']
  · have : v ≠ 0 := fun h0 => h' (h.1 h0)
    simp [this, h']

theorem hasValue_ok (num : Value → List Byte) {n : Node} (hn : n.tree.Legible num) {v : List Byte} (hv : Text v) (r : List Byte) :
    hasValue num n (v ++ 0 :: r) = .ok (n.tree.reads num v) := by
  cases n with
  | branch => rfl
  | leaf nm p x =>
    cases x with
    | none => rfl
    | str m s =>
      cases s with
      | none => rfl
      | some s =>
        rw [Node.tree, Tree.Legible] at hn
        obtain ⟨w, e, h⟩ := strcmp_eq hn hv [] r
        rw [hasValue, e, except_ok_bind, h]
        rfl
    | int i =>
      rw [Node.tree, Tree.Legible] at hn
      obtain ⟨t, r1, e1, ht, e2⟩ := text_cut hn
      obtain ⟨w, e, h⟩ := strcmp_eq ht hv r1 r
      rw [hasValue, e1, e, except_ok_bind, h, Node.tree, Tree.reads, ← e2]
    | real i =>
      rw [Node.tree, Tree.Legible] at hn
      obtain ⟨t, r1, e1, ht, e2⟩ := text_cut hn
      obtain ⟨w, e, h⟩ := strcmp_eq ht hv r1 r
      rw [hasValue, e1, e, except_ok_bind, h, Node.tree, Tree.reads, ← e2]

theorem hasField_ok (num : Value → List Byte) {ks : List Node} (hn : ∀ k ∈ ks, k.tree.HasName) (hl : ∀ k ∈ ks, k.tree.Legible num) {f v : List Byte} (hf : Text f) (hv : Text v) (r1 r2 : List Byte) :
    hasField num (f ++ 0 :: r1) (v ++ 0 :: r2) ks = .ok ((trees ks).any fun m => decide (m.name = some f) && m.reads num v) := by
  induction ks with
  | nil => rfl
  | cons k ks ih =>
    have ih := ih (fun k hk => hn k (List.mem_cons_of_mem _ hk)) (fun k hk => hl k (List.mem_cons_of_mem _ hk))
    rw [hasField, named_ok (hn k (by simp)) hf, except_ok_bind, trees, List.any_cons, tree_name]
    by_cases h : k.name = some f
    · rw [if_pos (by simpa using h), hasValue_ok num (hl k (by simp)) hv, except_ok_bind]
      cases h2 : k.tree.reads num v with
      | true => simp [h]
      | false => simpa [h] using ih
    · rw [if_neg (by simpa using h), ih]
      simp [h]

/-- What is needed of a child to be looked into for a field. -/
def Tree.Lookable (num : Value → List Byte) : Tree → Prop
  | .branch _ false ts => ∀ m ∈ ts, m.HasName ∧ m.Legible num
  | _ => True

theorem childWithField_ok (num : Value → List Byte) {ks : List Node} (hl : ∀ k ∈ ks, k.tree.Lookable num) {f v : List Byte} (hf : Text f) (hv : Text v) (r1 r2 : List Byte) (j : Nat) :
    childWithField num (f ++ 0 :: r1) (v ++ 0 :: r2) ks j = .ok (((trees ks).findIdx? (Tree.hasMember num f v)).map (· + j)) := by
  induction ks generalizing j with
  | nil => rfl
  | cons k ks ih =>
    have ih := ih (fun k hk => hl k (List.mem_cons_of_mem _ hk)) (j + 1)
    have hmap : ∀ o : Option Nat, (o.map (· + 1)).map (· + j) = o.map (· + (j + 1)) := by
      intro o
      cases o with
      | none => rfl
      | some i => simp; omega
    rw [trees, List.findIdx?_cons]
    cases k with
    | leaf nm p x =>
      rw [childWithField, ih]
      · simp only [Node.tree, Tree.hasMember, Bool.false_eq_true, if_false, hmap]
      · intros; rename_i h; cases h
    | branch nm p a b c fs =>
      cases a with
      | true =>
        rw [childWithField, ih]
        · simp only [Node.tree, Tree.hasMember, Bool.false_eq_true, if_false, hmap]
        · intros; rename_i h; cases h
      | false =>
        have hk := hl (.branch nm p false b c fs) (by simp)
        rw [Node.tree, Tree.Lookable, trees_eq] at hk
        rw [childWithField, hasField_ok num (fun k hk' => (hk k.tree (List.mem_map_of_mem hk')).1) (fun k hk' => (hk k.tree (List.mem_map_of_mem hk')).2) hf hv, except_ok_bind, Node.tree, Tree.hasMember]
        by_cases h : ((trees fs).any fun m => decide (m.name = some f) && m.reads num v) = true
        · rw [if_pos h, if_pos h]
          simp
        · rw [if_neg h, if_neg h, ih, hmap]

theorem childWithValue_ok (num : Value → List Byte) {ks : List Node} (hl : ∀ k ∈ ks, k.tree.Legible num) {v : List Byte} (hv : Text v) (r : List Byte) (j : Nat) :
    childWithValue num (v ++ 0 :: r) ks j = .ok (((trees ks).findIdx? (fun t => t.reads num v)).map (· + j)) := by
  induction ks generalizing j with
  | nil => rfl
  | cons k ks ih =>
    have ih := ih (fun k hk => hl k (List.mem_cons_of_mem _ hk)) (j + 1)
    rw [childWithValue, hasValue_ok num (hl k (by simp)) hv, except_ok_bind, trees, List.findIdx?_cons]
    by_cases h : k.tree.reads num v = true
    · rw [if_pos h, if_pos h]
      simp
    · rw [if_neg h, if_neg h, ih]
      congr 1
      cases (trees ks).findIdx? (fun t => t.reads num v) with
      | none => rfl
      | some i => simp; omega

theorem skip_stop {d : Byte} {s : List Byte} (h : ∀ c ∈ s, c ≠ 0 ∧ c ≠ d) (x : Byte) (hx : x = 0 ∨ x = d) (more : List Byte) : Token.skip d (s ++ x :: more) = .ok s.length := by
  induction s with
  | nil =>
    rw [List.nil_append, Token.skip, if_neg (by rcases hx with rfl | rfl <;> simp)]
    rfl
  | cons c s ih =>
    rw [List.cons_append, Token.skip, if_pos (h c (by simp)), ih (fun c hc => h c (List.mem_cons_of_mem _ hc))]
    rfl

theorem rd_mid (a : List Byte) (x : Byte) (b : List Byte) {i : Nat} (hi : i = a.length) : rd (a ++ x :: b) i = .ok x := by
  subst hi
  rw [rd]
  simp

theorem wr_mid (a : List Byte) (x y : Byte) (b : List Byte) {i : Nat} (hi : i = a.length) : wr (a ++ x :: b) i y = .ok (a ++ y :: b) := by
  subst hi
  rw [wr, if_pos (by simp)]
  simp

/-- One round of a query with brackets. -/
theorem query_bracket (pf : FloatPrinter) (num : Value → List Byte) (buf : List Byte) (nm pp a b c ks) {s0 : List Byte} (hseg : ∀ c ∈ s0, c ≠ 0 ∧ c ≠ 0x2f#8) (x : Byte)
    (hx : x = 0 ∨ x = 0x2f#8) (more : List Byte) {buf' buf'' : List Byte}
    (hb : bprintf pf buf segFmt [.int (BitVec.ofNat 32 (0x5b#8 :: s0).length), .str (some (0x5b#8 :: s0 ++ x :: more))] = .ok buf')
    {o : Option (List Nat)} (hp : bracket num a ks buf' = .ok (buf'', o)) :
    query pf num buf (some (.branch nm pp a b c ks)) (0x5b#8 :: s0 ++ x :: more) =
      if x ≠ 0 then do
        let r ← query pf num buf'' (o.bind (at? (.branch nm pp a b c ks))) more
        .ok (o.bind fun f => r.map (f ++ ·))
      else .ok o := by
  have hu : unslash (0x5b#8 :: s0 ++ x :: more) = .ok (0x5b#8 :: (s0 ++ x :: more)) := unslash_skip (by simp) (by simp)
  have hsk : Token.skip 0x2f#8 (0x5b#8 :: (s0 ++ x :: more)) = .ok (0x5b#8 :: s0).length := skip_to (s := 0x5b#8 :: s0) (by
    intro c hc
    rcases List.mem_cons.1 hc with rfl | hc
    · decide
    · exact hseg c hc) x hx more
  have hrd : rd (0x5b#8 :: (s0 ++ x :: more)) (0x5b#8 :: s0).length = .ok x := rd_mid (0x5b#8 :: s0) x more rfl
  have hdr : (s0 ++ x :: more).drop (0x5b#8 :: s0).length = more := by simp
  rw [query]
  split
  · rename_i e h
    rw [hu] at h; cases h
  · rename_i h
    rw [hu] at h; cases h
  · rename_i c' u h
    rw [hu] at h
    simp only [Except.ok.injEq, List.cons.injEq] at h
    obtain ⟨rfl, rfl⟩ := h
    rw [if_neg (by decide)]
    dsimp only
    rw [hsk, except_ok_bind]
    have hb' : bprintf pf buf segFmt [.int (BitVec.ofNat 32 (0x5b#8 :: s0).length), .str (some (0x5b#8 :: (s0 ++ x :: more)))] = .ok buf' := hb
    rw [hb', except_ok_bind, hrd, except_ok_bind, if_pos rfl, hp]
    simp only [except_ok_bind]
    rw [hdr]
    by_cases hcond : x ≠ 0
    · rw [if_pos hcond, if_pos ⟨hcond, by simp⟩]
    · rw [if_neg hcond, if_neg (fun h => hcond h.1)]

theorem looksUp_of_bracket (pf : FloatPrinter) (num : Value → List Byte) (nm pp a b c ks) {s0 : List Byte} (hseg : ∀ c ∈ s0, c ≠ 0 ∧ c ≠ 0x2f#8) (hl : s0.length + 2 < 65536)
    {o : Option (List Nat)} (ho : ∀ f, o = some f → ∃ m, at? (.branch nm pp a b c ks) f = some m)
    (hbr : ∀ r, ∃ buf'', bracket num a ks (0x5b#8 :: s0 ++ 0 :: r) = .ok (buf'', o) ∧ buf''.length = (0x5b#8 :: s0 ++ 0 :: r).length) :
    LooksUp pf num (.branch nm pp a b c ks) (0x5b#8 :: s0) o := by
  intro buf hb
  have ht : Text (0x5b#8 :: s0) := Text.cons.2 ⟨by decide, fun c hc => (hseg c hc).1⟩
  refine ⟨fun rest => ?_, fun u rest => ?_⟩
  · obtain ⟨r, e, hlen⟩ := bprintf_seg pf hb ht (by simpa using hl) (0 :: rest)
    obtain ⟨buf'', e2, hlen2⟩ := hbr r
    rw [query_bracket pf num buf nm pp a b c ks hseg 0 (Or.inl rfl) rest e e2, if_neg (by simp)]
  · obtain ⟨r, e, hlen⟩ := bprintf_seg pf hb ht (by simpa using hl) (0x2f#8 :: (u ++ 0 :: rest))
    obtain ⟨buf'', e2, hlen2⟩ := hbr r
    have h := query_bracket pf num buf nm pp a b c ks hseg 0x2f#8 (Or.inr rfl) (u ++ 0 :: rest) e e2
    rw [if_pos (by decide)] at h
    cases o with
    | none =>
      dsimp only
      rw [h, Option.bind_none, query_none, except_ok_bind]
      rfl
    | some f =>
      obtain ⟨m, hm⟩ := ho f rfl
      refine ⟨buf'', m, by omega, hm, ?_⟩
      rw [h, Option.bind_some, hm]
      cases query pf num buf'' (some m) (u ++ 0 :: rest) with
      | error => rfl
      | ok r => rfl

theorem bracket_field (num : Value → List Byte) (a : Bool) (ks : List Node) {f v : List Byte} (hf : Word f) (hfe : 0x3d#8 ∉ f) (hv : Word v) (r : List Byte) :
    bracket num a ks (fieldPart f v ++ 0 :: r) =
      if a then do
        let o ← childWithField num (f ++ 0 :: (v ++ 0 :: 0 :: r)) (v ++ 0 :: 0 :: r) ks 0
        .ok (0x5b#8 :: (f ++ 0 :: (v ++ 0 :: 0 :: r)), o.map ([·]))
      else (do
        let o ← hasField num (f ++ 0 :: (v ++ 0 :: 0 :: r)) (v ++ 0 :: 0 :: r) ks
        .ok (0x5b#8 :: (f ++ 0 :: (v ++ 0 :: 0 :: r)), if o then some [] else none)) := by
  have e0 : List.drop 1 (fieldPart f v ++ 0 :: r) = f ++ 0x3d#8 :: (v ++ 0x5d#8 :: 0 :: r) := by simp [fieldPart]
  have e0' : (fieldPart f v ++ 0 :: r).drop 1 = (f ++ 0x3d#8 :: v) ++ 0x5d#8 :: 0 :: r := by simp [fieldPart]
  have e1 : Token.skip 0x3d#8 ((fieldPart f v ++ 0 :: r).drop 1) = .ok f.length := by
    rw [e0]
    exact skip_stop (d := 0x3d#8) (fun c hc => ⟨(hf c hc).1, fun h => hfe (h ▸ hc)⟩) _ (Or.inr rfl) _
  have e2 : Token.skip 0x5d#8 ((fieldPart f v ++ 0 :: r).drop 1) = .ok (f ++ 0x3d#8 :: v).length := by
    rw [e0']
    refine skip_stop (fun c hc => ?_) _ (Or.inr rfl) _
    rcases List.mem_append.1 hc with hc | hc
    · exact ⟨(hf c hc).1, (hf c hc).2.2⟩
    · rcases List.mem_cons.1 hc with rfl | hc
      · decide
      · exact ⟨(hv c hc).1, (hv c hc).2.2⟩
  have r1 : rd (fieldPart f v ++ 0 :: r) (f.length + 1) = .ok 0x3d#8 := by
    have := rd_mid (0x5b#8 :: f) 0x3d#8 (v ++ 0x5d#8 :: 0 :: r) (i := f.length + 1) rfl
    simpa [fieldPart] using this
  have r2 : rd (fieldPart f v ++ 0 :: r) ((f ++ 0x3d#8 :: v).length + 1) = .ok 0x5d#8 := by
    have := rd_mid (0x5b#8 :: (f ++ 0x3d#8 :: v)) 0x5d#8 (0 :: r) (i := (f ++ 0x3d#8 :: v).length + 1) rfl
    simpa [fieldPart] using this
  have w1 : wr (fieldPart f v ++ 0 :: r) ((f ++ 0x3d#8 :: v).length + 1) 0 = .ok (0x5b#8 :: (f ++ 0x3d#8 :: (v ++ 0 :: 0 :: r))) := by
    have := wr_mid (0x5b#8 :: (f ++ 0x3d#8 :: v)) 0x5d#8 0 (0 :: r) (i := (f ++ 0x3d#8 :: v).length + 1) rfl
    simpa [fieldPart] using this
  have r3 : rd (0x5b#8 :: (f ++ 0x3d#8 :: (v ++ 0 :: 0 :: r))) (f.length + 1) = .ok 0x3d#8 := rd_mid (0x5b#8 :: f) _ _ rfl
  have w2 : wr (0x5b#8 :: (f ++ 0x3d#8 :: (v ++ 0 :: 0 :: r))) (f.length + 1) 0 = .ok (0x5b#8 :: (f ++ 0 :: (v ++ 0 :: 0 :: r))) := wr_mid (0x5b#8 :: f) _ _ _ rfl
  have d1 : (0x5b#8 :: (f ++ 0 :: (v ++ 0 :: 0 :: r))).drop 1 = f ++ 0 :: (v ++ 0 :: 0 :: r) := rfl
  have d2 : (0x5b#8 :: (f ++ 0 :: (v ++ 0 :: 0 :: r))).drop (f.length + 2) = v ++ 0 :: 0 :: r := by simp
  rw [bracket, e1, except_ok_bind, e2, except_ok_bind, r1, except_ok_bind, r2, except_ok_bind, if_neg (by simp), w1, except_ok_bind, r3, except_ok_bind, if_pos (by decide), w2, except_ok_bind, d1, d2]

theorem bracket_value (num : Value → List Byte) (ks : List Node) {v : List Byte} (hv : Word v) (hve : 0x3d#8 ∉ v) (r : List Byte) :
    bracket num true ks (valuePart v ++ 0 :: r) = (do
        let o ← childWithValue num (v ++ 0 :: 0 :: r) ks 0
        .ok (0x5b#8 :: (v ++ 0 :: 0 :: r), o.map ([·]))) := by
  have e0 : (valuePart v ++ 0 :: r).drop 1 = v ++ 0x5d#8 :: 0 :: r := by simp [valuePart]
  have e0' : (valuePart v ++ 0 :: r).drop 1 = (v ++ [0x5d#8]) ++ 0 :: r := by simp [valuePart]
  have e1 : Token.skip 0x3d#8 ((valuePart v ++ 0 :: r).drop 1) = .ok (v ++ [0x5d#8]).length := by
    rw [e0']
    refine skip_stop (fun c hc => ?_) _ (Or.inl rfl) _
    rcases List.mem_append.1 hc with hc | hc
    · exact ⟨(hv c hc).1, fun h => hve (h ▸ hc)⟩
    · rw [List.mem_singleton.1 hc]
      decide
  have e2 : Token.skip 0x5d#8 ((valuePart v ++ 0 :: r).drop 1) = .ok v.length := by
    rw [e0]
    exact skip_stop (fun c hc => ⟨(hv c hc).1, (hv c hc).2.2⟩) _ (Or.inr rfl) _
  have r1 : rd (valuePart v ++ 0 :: r) ((v ++ [0x5d#8]).length + 1) = .ok 0 := by
    have := rd_mid (0x5b#8 :: (v ++ [0x5d#8])) 0 r (i := (v ++ [0x5d#8]).length + 1) rfl
    simpa [valuePart] using this
  have r2 : rd (valuePart v ++ 0 :: r) (v.length + 1) = .ok 0x5d#8 := by
    have := rd_mid (0x5b#8 :: v) 0x5d#8 (0 :: r) (i := v.length + 1) rfl
    simpa [valuePart] using this
  have w1 : wr (valuePart v ++ 0 :: r) (v.length + 1) 0 = .ok (0x5b#8 :: (v ++ 0 :: 0 :: r)) := by
    have := wr_mid (0x5b#8 :: v) 0x5d#8 0 (0 :: r) (i := v.length + 1) rfl
    simpa [valuePart] using this
  have r3 : rd (0x5b#8 :: (v ++ 0 :: 0 :: r)) ((v ++ [0x5d#8]).length + 1) = .ok 0 := by
    have := rd_mid (0x5b#8 :: (v ++ [0])) 0 r (i := (v ++ [0x5d#8]).length + 1) (by simp)
    simpa using this
  have d1 : (0x5b#8 :: (v ++ 0 :: 0 :: r)).drop 1 = v ++ 0 :: 0 :: r := rfl
  rw [bracket, e1, except_ok_bind, e2, except_ok_bind, r1, except_ok_bind, r2, except_ok_bind, if_neg (by decide), w1, except_ok_bind, r3, except_ok_bind, if_neg (by decide), d1]

theorem Word.text {s : List Byte} (h : Word s) : Text s := fun c hc => (h c hc).1

theorem findIdx_kid {ks : List Node} (p : Tree → Bool) {nm pp a b c} (f : List Nat) (h : ((trees ks).findIdx? p).map ([·]) = some f) : ∃ m, at? (.branch nm pp a b c ks) f = some m := by
  cases hi : (trees ks).findIdx? p with
  | none => rw [hi] at h; cases h
  | some i =>
    rw [hi] at h
    injection h with h
    subst h
    have := (List.findIdx?_eq_some_iff_getElem.1 hi).1
    rw [trees_eq, List.length_map] at this
    rw [at?, Node.kids, List.getElem?_eq_getElem this]
    exact ⟨_, rfl⟩

/-! ## Theorems -/

/-- **C79, `[field=value]` in an array** leads to the first child that is an object with such a member. -/
theorem C79_array_field (pf : FloatPrinter) (num : Value → List Byte) {n : Node} {nm ts} (ht : n.tree = .branch nm true ts) (hl : ∀ t ∈ ts, t.Lookable num)
    {f v : List Byte} (hf : Word f) (hfe : 0x3d#8 ∉ f) (hv : Word v) (hlen : f.length + v.length + 4 < 65536) :
    LooksUp pf num n (fieldPart f v) ((ts.findIdx? (Tree.hasMember num f v)).map ([·])) := by
  cases n with
  | leaf => cases ht
  | branch nm' pp a b c ks =>
    rw [Node.tree] at ht
    injection ht with h1 h2 h3
    subst h1 h2 h3
    rw [trees_eq] at hl
    refine looksUp_of_bracket pf num _ pp true b c ks (s0 := f ++ 0x3d#8 :: (v ++ [0x5d#8])) ?_ (by simp; omega) (fun f h => findIdx_kid _ f h) (fun r => ?_)
    · intro c hc
      simp only [List.mem_append, List.mem_cons, List.mem_nil_iff, or_false] at hc
      rcases hc with hc | rfl | hc | rfl
      · exact ⟨(hf c hc).1, (hf c hc).2.1⟩
      · decide
      · exact ⟨(hv c hc).1, (hv c hc).2.1⟩
      · decide
    · refine ⟨0x5b#8 :: (f ++ 0 :: (v ++ 0 :: 0 :: r)), ?_, by simp⟩
      have := bracket_field num true ks hf hfe hv r
      rw [if_pos rfl, childWithField_ok num (fun k hk => hl k.tree (List.mem_map_of_mem hk)) hf.text hv.text, except_ok_bind] at this
      simpa [fieldPart, valuePart] using this

/-- **C79, `[field=value]` in an object** leads to the object itself if it has such a member, to nothing otherwise. -/
theorem C79_object_field (pf : FloatPrinter) (num : Value → List Byte) {n : Node} {nm ts} (ht : n.tree = .branch nm false ts) (hl : n.tree.Lookable num)
    {f v : List Byte} (hf : Word f) (hfe : 0x3d#8 ∉ f) (hv : Word v) (hlen : f.length + v.length + 4 < 65536) :
    LooksUp pf num n (fieldPart f v) (if n.tree.hasMember num f v then some [] else none) := by
  rw [ht] at hl ⊢
  cases n with
  | leaf => cases ht
  | branch nm' pp a b c ks =>
    rw [Node.tree] at ht
    injection ht with h1 h2 h3
    subst h1 h2 h3
    rw [Tree.Lookable, trees_eq] at hl
    rw [Tree.hasMember]
    refine looksUp_of_bracket pf num _ pp false b c ks (s0 := f ++ 0x3d#8 :: (v ++ [0x5d#8])) ?_ (by simp; omega) (fun f h => ?_) (fun r => ?_)
    · intro c hc
      simp only [List.mem_append, List.mem_cons, List.mem_nil_iff, or_false] at hc
      rcases hc with hc | rfl | hc | rfl
      · exact ⟨(hf c hc).1, (hf c hc).2.1⟩
      · decide
      · exact ⟨(hv c hc).1, (hv c hc).2.1⟩
      · decide
    · split at h
      · injection h with h
        subst h
        exact ⟨_, rfl⟩
      · cases h
    · refine ⟨0x5b#8 :: (f ++ 0 :: (v ++ 0 :: 0 :: r)), ?_, by simp⟩
      have := bracket_field num false ks hf hfe hv r
      rw [if_neg (by decide), hasField_ok num (fun k hk => (hl k.tree (List.mem_map_of_mem hk)).1) (fun k hk => (hl k.tree (List.mem_map_of_mem hk)).2) hf.text hv.text, except_ok_bind] at this
      simpa [fieldPart, valuePart] using this

/-- **C79, `[value]` in an array** leads to the first child that reads so. -/
theorem C79_array_value (pf : FloatPrinter) (num : Value → List Byte) {n : Node} {nm ts} (ht : n.tree = .branch nm true ts) (hl : ∀ t ∈ ts, t.Legible num)
    {v : List Byte} (hv : Word v) (hve : 0x3d#8 ∉ v) (hlen : v.length + 3 < 65536) :
    LooksUp pf num n (valuePart v) ((ts.findIdx? (fun t => t.reads num v)).map ([·])) := by
  cases n with
  | leaf => cases ht
  | branch nm' pp a b c ks =>
    rw [Node.tree] at ht
    injection ht with h1 h2 h3
    subst h1 h2 h3
    rw [trees_eq] at hl
    refine looksUp_of_bracket pf num _ pp true b c ks (s0 := v ++ [0x5d#8]) ?_ (by simp; omega) (fun f h => findIdx_kid _ f h) (fun r => ?_)
    · intro c hc
      simp only [List.mem_append, List.mem_cons, List.mem_nil_iff, or_false] at hc
      rcases hc with hc | rfl
      · exact ⟨(hv c hc).1, (hv c hc).2.1⟩
      · decide
    · refine ⟨0x5b#8 :: (v ++ 0 :: 0 :: r), ?_, by simp⟩
      have := bracket_value num ks hv hve r
      rw [childWithValue_ok num (fun k hk => hl k.tree (List.mem_map_of_mem hk)) hv.text, except_ok_bind] at this
      simpa [fieldPart, valuePart] using this

/-- A part `[...` without `]` is not allowed: it fails an assertion. -/
theorem C79_unclosed (num : Value → List Byte) (a : Bool) (ks : List Node) {s0 : List Byte} (h : Word s0) (r : List Byte) : bracket num a ks (0x5b#8 :: s0 ++ 0 :: r) = .error .assertion := by
  have e1 : ∃ k, Token.skip 0x3d#8 (s0 ++ 0 :: r) = .ok k ∧ k ≤ s0.length := by
    obtain ⟨k, e, h1, -⟩ := Token.skip_ok 0x3d#8 h.text r
    exact ⟨k, e, h1⟩
  have e2 : Token.skip 0x5d#8 (s0 ++ 0 :: r) = .ok s0.length := skip_stop (fun c hc => ⟨(h c hc).1, (h c hc).2.2⟩) _ (Or.inl rfl) _
  obtain ⟨k, e1, hk⟩ := e1
  have r1 : ∃ x, rd (0x5b#8 :: s0 ++ 0 :: r) (k + 1) = .ok x := ⟨_, rd_ok (by simp; omega)⟩
  obtain ⟨x, r1⟩ := r1
  have r2 : rd (0x5b#8 :: s0 ++ 0 :: r) (s0.length + 1) = .ok 0 := rd_mid (0x5b#8 :: s0) 0 r rfl
  have d : List.drop 1 (0x5b#8 :: s0 ++ 0 :: r) = s0 ++ 0 :: r := rfl
  rw [bracket, d, e1, except_ok_bind, e2, except_ok_bind, r1, except_ok_bind, r2, except_ok_bind, if_pos (Or.inr rfl)]

/-- A part `[value]` is not allowed in an object: it fails an assertion. -/
theorem C79_object_value (num : Value → List Byte) (ks : List Node) {v : List Byte} (hv : Word v) (hve : 0x3d#8 ∉ v) (r : List Byte) : bracket num false ks (valuePart v ++ 0 :: r) = .error .assertion := by
  have e0 : List.drop 1 (valuePart v ++ 0 :: r) = v ++ 0x5d#8 :: 0 :: r := by simp [valuePart]
  have e0' : List.drop 1 (valuePart v ++ 0 :: r) = (v ++ [0x5d#8]) ++ 0 :: r := by simp [valuePart]
  have e1 : Token.skip 0x3d#8 (List.drop 1 (valuePart v ++ 0 :: r)) = .ok (v ++ [0x5d#8]).length := by
    rw [e0']
    refine skip_stop (fun c hc => ?_) _ (Or.inl rfl) _
    rcases List.mem_append.1 hc with hc | hc
    · exact ⟨(hv c hc).1, fun h => hve (h ▸ hc)⟩
    · rw [List.mem_singleton.1 hc]
      decide
  have e2 : Token.skip 0x5d#8 (List.drop 1 (valuePart v ++ 0 :: r)) = .ok v.length := by
    rw [e0]
    exact skip_stop (fun c hc => ⟨(hv c hc).1, (hv c hc).2.2⟩) _ (Or.inr rfl) _
  have r1 : rd (valuePart v ++ 0 :: r) ((v ++ [0x5d#8]).length + 1) = .ok 0 := by
    have := rd_mid (0x5b#8 :: (v ++ [0x5d#8])) 0 r (i := (v ++ [0x5d#8]).length + 1) rfl
    simpa [valuePart] using this
  have r2 : rd (valuePart v ++ 0 :: r) (v.length + 1) = .ok 0x5d#8 := by
    have := rd_mid (0x5b#8 :: v) 0x5d#8 (0 :: r) (i := v.length + 1) rfl
    simpa [valuePart] using this
  rw [bracket, e1, except_ok_bind, e2, except_ok_bind, r1, except_ok_bind, r2, except_ok_bind, if_pos (Or.inl ⟨rfl, rfl⟩)]

/-! ## The theorems are not vacuous -/

/-- Prints `7` as `7` and everything else as `?`. -/
def sampleNum : Value → List Byte
  | .int 7 => [0x37#8, 0, 0, 0]
  | _ => [0x3f#8, 0, 0, 0]

/-- An array of two objects with a member `x` that is `1` in the first and `7` in the second, followed by the string `7`. -/
def people : Node :=
  .branch none none true 1 8
    [.branch none (some ⟨0, 0⟩) false 2 8 [.leaf (some [0x78#8]) (some ⟨1, 0⟩) (.int 1)],
     .branch none (some ⟨0, 0⟩) false 3 8 [.leaf (some [0x78#8]) (some ⟨1, 1⟩) (.int 7), .leaf (some [0x79#8]) (some ⟨1, 1⟩) (.str false (some [0x37#8]))],
     .leaf none (some ⟨0, 0⟩) (.str false (some [0x37#8]))]

example : (∀ t ∈ people.tree.kids, t.Lookable sampleNum) ∧ Word [0x78#8] ∧ 0x3d#8 ∉ [0x78#8] ∧ Word [0x37#8] ∧ (people.tree.kids.findIdx? (Tree.hasMember sampleNum [0x78#8] [0x37#8])).map ([·]) = some [1] := by
  refine ⟨?_, ?_, by decide, ?_, by rfl⟩
  · simp only [people, Node.tree, trees, Tree.kids, List.mem_cons, List.mem_nil_iff, or_false]
    rintro t (rfl | rfl | rfl) <;> simp [Tree.Lookable, Tree.HasName, Tree.name, Tree.Legible, Text, sampleNum]
  · simp [Word]
  · simp [Word]

example : (∀ t ∈ people.tree.kids, t.Legible sampleNum) ∧ (people.tree.kids.findIdx? (fun t => t.reads sampleNum [0x37#8])).map ([·]) = some [2] := by
  refine ⟨?_, by rfl⟩
  simp only [people, Node.tree, trees, Tree.kids, List.mem_cons, List.mem_nil_iff, or_false]
  rintro t (rfl | rfl | rfl) <;> simp [Tree.Legible, Text]

end Zpl.Adt
