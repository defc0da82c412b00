import Verif.Coll.HashTable

/-! # Properties of `ZPL_TABLE`: C03, C04, C05 -/

namespace Zpl.Table

variable {V : Type}

/-! ## Specification -/

/-- The finite map a history builds: key to the value of the last `set`, cleared by `remove` and `clear`. -/
def lastBinding : List (Op V) → (Nat → Option V) → Nat → Option V
  | [], m => m
  | .set k v :: ops, m => lastBinding ops (fun x => if x = k then some v else m x)
  | .remove k :: ops, m => lastBinding ops (fun x => if x = k then none else m x)
  | .clear :: ops, _ => lastBinding ops (fun _ => none)
  | _ :: ops, m => lastBinding ops m

/-- Tables that some history of calls on a freshly initialised table produces. -/
def Reachable (h : Tbl V) : Prop := ∃ ops os, run init ops = .ok (h, os)

/-! ## Lemmas -/

theorem reachable_inv {h : Tbl V} (hr : Reachable h) : Inv h := by
  obtain ⟨ops, os, hr⟩ := hr
  obtain ⟨h', h1, h2, _⟩ := run_ok ops init inv_init
  rw [hr] at h1
  injection h1 with h1
  injection h1 with h1 _
  subst h1; exact h2

theorem bGet_bSet (m : Binds V) (k x : Nat) (v : V) : bGet (bSet m k v) x = if x = k then some v else bGet m x := by
  unfold bSet
  by_cases hk : k ∈ m.map Prod.fst
  · rw [if_pos hk]
    induction m with
    | nil => simp at hk
    | cons b m ih =>
      obtain ⟨a, w⟩ := b
      by_cases hm : k ∈ m.map Prod.fst
      · have ih := ih hm
        simp only [bGet, List.map_cons, List.find?_cons] at ih ⊢
        by_cases hak : a = k
        · subst hak
          by_cases hx : x = a
          · subst hx; simp
          · have hx' : ¬ (a = x) := fun h => hx h.symm
            simp only [if_true, hx', decide_false, hx, if_false] at ih ⊢
            exact ih
        · by_cases hx : a = x
          · subst hx; simp [hak]
          · simp only [hak, if_false, hx, decide_false]
            exact ih
      · have hak : a = k := by
          simp only [List.map_cons, List.mem_cons] at hk
          rcases hk with h | h
          · exact h.symm
          · exact absurd h hm
        subst hak
        have hid : m.map (fun b => if b.1 = a then (a, v) else b) = m := by
          conv => rhs; rw [← List.map_id m]
          apply List.map_congr_left
          intro b hb
          have : b.1 ≠ a := fun h => hm (List.mem_map.mpr ⟨b, hb, h⟩)
          simp [this]
        by_cases hx : x = a
        · subst hx; simp [bGet]
        · have hx' : ¬ (a = x) := fun h => hx h.symm
          simp only [bGet, List.map_cons, List.find?_cons, if_true, hx', decide_false, hx, if_false, hid]
  · rw [if_neg hk]
    simp only [bGet, List.find?_append]
    by_cases hx : x = k
    · subst hx
      have : m.find? (fun b => b.1 = x) = none := by
        rw [List.find?_eq_none]
        intro b hb hbk
        exact hk (List.mem_map.mpr ⟨b, hb, by simpa using hbk⟩)
      simp [this]
    · have hx' : ¬ (k = x) := fun h => hx h.symm
      simp [hx, hx']

theorem bGet_bRemove (m : Binds V) (k x : Nat) : bGet (bRemove m k) x = if x = k then none else bGet m x := by
  induction m with
  | nil => simp [bGet, bRemove]
  | cons b m ih =>
    obtain ⟨a, w⟩ := b
    simp only [bGet, bRemove, List.filter_cons, List.find?_cons] at ih ⊢
    by_cases hak : a = k
    · subst hak
      by_cases hx : x = a
      · subst hx; simp
      · have hx' : ¬ (a = x) := fun h => hx h.symm
        simp only [ne_eq, not_true_eq_false, decide_false, Bool.false_eq_true, if_false, hx, hx'] at ih ⊢
        exact ih
    · simp only [ne_eq, hak, not_false_eq_true, decide_true, if_true, List.find?_cons]
      by_cases hx : a = x
      · subst hx; simp [hak]
      · simp only [hx, decide_false]; exact ih

theorem bGet_run : ∀ (ops : List (Op V)) (m : Binds V) (k : Nat), bGet (specRun m ops).1 k = lastBinding ops (bGet m) k
  | [], m, k => rfl
  | op :: ops, m, k => by
    have ih := fun m' => bGet_run ops m' k
    cases op with
    | set a v =>
      have : bGet (bSet m a v) = fun x => if x = a then some v else bGet m x := funext (bGet_bSet m a · v)
      simp only [specRun, specStep, lastBinding, ← this]; exact ih _
    | remove a =>
      have : bGet (bRemove m a) = fun x => if x = a then none else bGet m x := funext (bGet_bRemove m a)
      simp only [specRun, specStep, lastBinding, ← this]; exact ih _
    | clear => simp only [specRun, specStep, lastBinding]; exact ih []
    | get a => exact ih m
    | slot a => exact ih m
    | grow => exact ih m
    | rehash n => exact ih m
    | rehashFast => exact ih m

/-! ## C03 -/

/-- **C03.**  For every history of calls on a fresh table no call leaves the arrays or loops, and afterwards `get` of
every key returns the value of the last `set` of that key not followed by its `remove` or by `clear`. -/
theorem C03_table_is_map (ops : List (Op V)) :
    ∃ h os, run init ops = .ok (h, os) ∧ ∀ k, get h k = .ok (lastBinding ops (fun _ => none) k) := by
  obtain ⟨h', h1, h2, h3⟩ := run_ok ops init inv_init
  refine ⟨h', _, h1, fun k => ?_⟩
  rw [get_ok h2, h3, bGet_run]
  rfl

/-- **C03**, with the results of every call in the history: they are those of the list of bindings. -/
theorem C03_outputs (ops : List (Op V)) :
    ∃ h, run init ops = .ok (h, (specRun [] ops).2) ∧ map h = (specRun [] ops).1 := by
  obtain ⟨h', h1, h2, h3⟩ := run_ok ops init inv_init
  exact ⟨h', h1, h3⟩

/-- Non-vacuity: five keys that all fall in bucket 1 of 8, an overwrite, a removal, growth. -/
example : (∃ h os, run (init : Tbl Nat) [.set 1 10, .set 9 90, .set 17 170, .set 9 91, .remove 1, .set 25 250, .set 33 3, .set 2 4, .set 3 5,
      .get 9, .get 1] = .ok (h, os) ∧ h.entries.length = 6 ∧ get h 9 = .ok (some 91) ∧ get h 1 = .ok none) :=
  ⟨_, _, rfl, rfl, rfl, rfl⟩

/-! ## C04 -/

/-- A run of `remove_entry` calls with the keys of the removed entries. -/
def removeEntries (h : Tbl V) : List Nat → Except Fault (Tbl V × List Nat)
  | [] => .ok (h, [])
  | i :: is => do
    let e ← rd h.entries i
    let h ← removeEntry h i
    let (h, ks) ← removeEntries h is
    .ok (h, e.key :: ks)

/-- A run of `remove` calls. -/
def removeKeys (h : Tbl V) : List Nat → Except Fault (Tbl V)
  | [] => .ok h
  | k :: ks => do
    let h ← remove h k
    removeKeys h ks

/-- The indices are valid, each in the array left by the previous removals. -/
def Valid : Nat → List Nat → Prop
  | _, [] => True
  | n, i :: is => i < n ∧ Valid (n - 1) is

theorem removeEntries_ok : ∀ (is : List Nat) (h : Tbl V), Keys h.entries → Valid h.entries.length is →
    ∃ h' ks, removeEntries h is = .ok (h', ks) ∧ h'.hashes = h.hashes ∧ Keys h'.entries ∧
      (h'.entries ≠ [] → h.entries ≠ []) ∧ binds h'.entries = ks.foldl bRemove (binds h.entries)
  | [], h, hk, _ => ⟨h, [], rfl, rfl, hk, id, rfl⟩
  | i :: is, h, hk, ⟨hi, hv⟩ => by
    have hlen : (h.entries.eraseIdx i).length = h.entries.length - 1 := List.length_eraseIdx_of_lt hi
    obtain ⟨h', ks, h1, h2, h3, h4, h5⟩ := removeEntries_ok is ⟨h.hashes, h.entries.eraseIdx i⟩ (keys_eraseIdx hk i)
      (by rw [hlen]; exact hv)
    refine ⟨h', h.entries[i].key :: ks, ?_, h2, h3, fun _ => ?_, ?_⟩
    · simp [removeEntries, rd_ok hi, removeEntry, hi, h1]
    · rintro h0; simp [h0] at hi
    · rw [h5]
      have hb : (binds h.entries)[i]? = some (h.entries[i].key, h.entries[i].value) := by simp [binds, hi]
      have := bRemove_eq (m := binds h.entries) (by rw [keys_eq]; exact hk) hb
      simp only [List.foldl_cons, binds_eraseIdx, this]

theorem removeKeys_ok : ∀ (ks : List Nat) (h : Tbl V), Inv h →
    ∃ h', removeKeys h ks = .ok h' ∧ Inv h' ∧ binds h'.entries = ks.foldl bRemove (binds h.entries)
  | [], h, hi => ⟨h, rfl, hi, rfl⟩
  | k :: ks, h, hi => by
    obtain ⟨h1, e1, i1, b1⟩ := remove_ok hi k
    obtain ⟨h2, e2, i2, b2⟩ := removeKeys_ok ks h1 i1
    exact ⟨h2, by simp [removeKeys, e1, e2], i2, by rw [b2, b1]; rfl⟩

/-- **C04.**  On every reachable table and for every run of valid entry indices: removing the entries with `remove_entry` and calling
`rehash_fast` once succeeds and leaves the same bindings, in the same order, with the same answer to every `get`, as calling
`remove` for the keys of those entries. -/
theorem C04_remove_entry_rehash_fast (h : Tbl V) (hr : Reachable h) (is : List Nat) (hv : Valid h.entries.length is) :
    ∃ h1 ks h2 h3, removeEntries h is = .ok (h1, ks) ∧ rehashFast h1 = .ok h2 ∧ removeKeys h ks = .ok h3 ∧
      map h2 = map h3 ∧ ∀ k, get h2 k = get h3 k := by
  have hi := reachable_inv hr
  obtain ⟨h1, ks, e1, e2, e3, e4, e5⟩ := removeEntries_ok is h hi.keys hv
  obtain ⟨h2, f1, f2, f3⟩ := rehashFast_ok (h := h1) e3 (fun hne => by rw [e2]; exact hi.nonempty (e4 hne))
  obtain ⟨h3, g1, g2, g3⟩ := removeKeys_ok ks h hi
  have hb : binds h2.entries = binds h3.entries := by rw [f3, e5, g3]
  exact ⟨h1, ks, h2, h3, e1, f1, g1, hb, fun k => by rw [get_ok f2, get_ok g2, hb]⟩

/-- Non-vacuity of C04: a reachable table with three entries and two valid removals. -/
example : ∃ h : Tbl Nat, Reachable h ∧ Valid h.entries.length [0, 1] ∧ h.entries.length = 3 :=
  ⟨_, ⟨[.set 1 10, .set 9 90, .set 17 170], _, rfl⟩, (show Valid 3 [0, 1] by simp [Valid]), rfl⟩

/-- C04, second half: without the `rehash_fast` call a lookup really can be wrong - key 2 is bound but not found. -/
theorem C04_without_rehash_lookup_wrong :
    ∃ (h h' : Tbl Nat) (ops : List (Op Nat)) (os : List (Out Nat)), run init ops = .ok (h, os) ∧
      removeEntry h 0 = .ok h' ∧ (2, 20) ∈ map h' ∧ get h' 2 = .error .oob :=
  ⟨_, _, [.set 1 10, .set 2 20], _, rfl, rfl, by decide, rfl⟩

/-! ## C05 -/

/-- **C05**, `map`: on every reachable table the procedure is called exactly once per bound key, with the value `get` returns, and for no
other key. -/
theorem C05_map_visits (h : Tbl V) (hr : Reachable h) :
    ((map h).map Prod.fst).Nodup ∧ ∀ k v, (k, v) ∈ map h ↔ get h k = .ok (some v) := by
  have hi := reachable_inv hr
  have hn := inv_nodup hi
  refine ⟨hn, fun k v => ?_⟩
  rw [get_ok hi]
  constructor
  · intro hm
    obtain ⟨i, h1, h2⟩ := List.getElem_of_mem hm
    have := find?_of_nodup (m := binds h.entries) hn (i := i) (b := (k, v)) (by rw [List.getElem?_eq_some_iff]; exact ⟨h1, h2⟩)
    simp only at this
    simp [bGet, this]
  · intro hg
    injection hg with hg
    simp only [bGet, Option.map_eq_some_iff] at hg
    obtain ⟨b, hb, hbv⟩ := hg
    have h1 := List.mem_of_find?_eq_some hb
    have h2 := List.find?_some hb
    have : b = (k, v) := by
      obtain ⟨b1, b2⟩ := b
      simp at h2 hbv
      rw [h2, hbv]
    rw [← this]; exact h1

/-- The visitor that records its calls and writes a value depending on the calls made so far: every
deterministic visitor behaves like one of these. -/
def recorder (g : List (Nat × V) → Nat → V → V) (log : List (Nat × V)) (k : Nat) (v : V) : List (Nat × V) × V :=
  (log ++ [(k, v)], g log k v)

theorem mapMut_spec (g : List (Nat × V) → Nat → V → V) : ∀ (es : List (Entry V)) (log : List (Nat × V)),
    (mapMut (recorder g) log es).1 = log ++ binds es ∧
    (mapMut (recorder g) log es).2.length = es.length ∧
    ∀ (i : Nat) (e : Entry V), es[i]? = some e →
      (mapMut (recorder g) log es).2[i]? = some { e with value := g (log ++ (binds es).take i) e.key e.value }
  | [], log => ⟨by simp [mapMut, binds], rfl, by simp⟩
  | e :: es, log => by
    obtain ⟨h1, h2, h3⟩ := mapMut_spec g es (log ++ [(e.key, e.value)])
    refine ⟨?_, ?_, ?_⟩
    · simp [mapMut, recorder, h1, binds]
    · simp [mapMut, recorder, h2]
    · intro i f hf
      cases i with
      | zero =>
        have : e = f := by simpa using hf
        subst this
        simp [mapMut, recorder]
      | succ i =>
        have := h3 i f (by simpa using hf)
        simp only [mapMut, recorder, List.getElem?_cons_succ, this]
        simp [binds]

/-- **C05**, `map_mut`: on every reachable table, for every deterministic visitor `g` (the value it writes may depend on the calls so far): the
calls are those of `map`, in that order; afterwards the bound keys are the same, and `get` of the `i`-th key returns exactly
what the visitor wrote for it. -/
theorem C05_map_mut (h : Tbl V) (hr : Reachable h) (g : List (Nat × V) → Nat → V → V) :
    let r := mapMut (recorder g) [] h.entries
    let h' : Tbl V := ⟨h.hashes, r.2⟩
    r.1 = map h ∧ (map h').map Prod.fst = (map h).map Prod.fst ∧
    (∀ i k v, (map h)[i]? = some (k, v) → get h' k = .ok (some (g ((map h).take i) k v))) ∧
    (∀ k, get h k = .ok none → get h' k = .ok none) := by
  intro r h'
  have hi := reachable_inv hr
  obtain ⟨h1, h2, h3⟩ := mapMut_spec g h.entries []
  have hat : ∀ j : Nat, r.2[j]? = (h.entries[j]?).map (fun e => { e with value := g ((binds h.entries).take j) e.key e.value }) := by
    intro j
    cases hj : h.entries[j]? with
    | none =>
      rw [List.getElem?_eq_none_iff] at hj
      simp only [Option.map_none, List.getElem?_eq_none_iff]
      rw [h2]; exact hj
    | some e => rw [show r.2[j]? = _ from h3 j e hj]; simp
  have hk : ∀ j : Nat, r.2[j]?.map Entry.key = h.entries[j]?.map Entry.key := by
    intro j; rw [hat]; cases h.entries[j]? <;> rfl
  have hx : ∀ j : Nat, r.2[j]?.map Entry.next = h.entries[j]?.map Entry.next := by
    intro j; rw [hat]; cases h.entries[j]? <;> rfl
  have hkl : r.2.map Entry.key = h.entries.map Entry.key := by
    apply List.ext_getElem?; intro j; simp only [List.getElem?_map]; exact hk j
  have hinv : Inv h' := by
    refine ⟨by rw [Keys, hkl]; exact hi.keys, ⟨by simp, fun b hb => ?_⟩, fun hne => hi.nonempty ?_⟩
    · show ChainFrom r.2 h.hashes[b] (bucket r.2 h.hashes.length b r.2.length)
      rw [bucket_congr (es' := h.entries) (fun j _ => hk j), show r.2.length = h.entries.length from h2]
      exact chain_congr (fun j _ => (hx j).symm) (hi.linked.chains b hb)
    · rintro h0
      apply hne
      have : r.2.length = 0 := by rw [show r.2.length = _ from h2, h0]; rfl
      exact List.length_eq_zero_iff.mp this
  have hkk : (map h').map Prod.fst = (map h).map Prod.fst := by
    show (binds r.2).map Prod.fst = (binds h.entries).map Prod.fst
    rw [keys_eq, keys_eq, hkl]
  refine ⟨by rw [List.nil_append] at h1; exact h1, hkk, ?_, ?_⟩
  · intro i k v hm
    have hm' : (h.entries[i]?).map (fun e => (e.key, e.value)) = some (k, v) := by simpa [map] using hm
    rw [Option.map_eq_some_iff] at hm'
    obtain ⟨e, he, hkv⟩ := hm'
    injection hkv with hek hev
    have hb : (binds r.2)[i]? = some (k, g ((map h).take i) k v) := by
      simp only [binds, List.getElem?_map, hat, he, Option.map_some, hek, hev]; rfl
    have := find?_of_nodup (m := binds r.2) (inv_nodup hinv) hb
    simp only at this
    rw [get_ok hinv]
    simp [bGet, h', this]
  · intro k hg
    rw [get_ok hi] at hg
    rw [get_ok hinv]
    injection hg with hg
    simp only [bGet, Option.map_eq_none_iff, List.find?_eq_none] at hg ⊢
    congr 1
    simp only [Option.map_eq_none_iff, List.find?_eq_none]
    intro b hb hbk
    have : b.1 ∈ (binds r.2).map Prod.fst := List.mem_map.mpr ⟨b, hb, rfl⟩
    rw [show (binds r.2).map Prod.fst = (binds h.entries).map Prod.fst from hkk] at this
    obtain ⟨c, hc, hcb⟩ := List.mem_map.mp this
    exact hg c hc (by rw [hcb]; exact hbk)

/-- Non-vacuity of C05: a reachable table with two colliding keys and a visitor that writes running totals. -/
example : ∃ h : Tbl Nat, Reachable h ∧ map h = [(1, 10), (9, 90)] ∧
    map ⟨h.hashes, (mapMut (recorder (fun log _ v => (log.map Prod.snd).sum + v)) [] h.entries).2⟩ = [(1, 10), (9, 100)] :=
  ⟨_, ⟨[.set 1 10, .set 9 90], _, rfl⟩, rfl, rfl⟩

end Zpl.Table
