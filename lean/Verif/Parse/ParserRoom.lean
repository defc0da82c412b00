import Verif.Parse.ParserMem

/-!
# The arrays of parsed tables and URIs hold what is in them (code/source/parsers/csv_parse.c, uri.c, code/header/core/array.h:115-162)  -  C150

About the model of `Verif.Parse.ParserMem`: no array is written over its end, however often memory runs out. -/

namespace Zpl.ParserMem

open Zpl.Str (Byte)
open Zpl.Adt (grow)

/-! ## Specification -/

/-- No array holds more elements than it has room for. -/
def Table.Fits {ν : Type} (s : Table ν) : Prop := (∀ b cap, s.arr = some (b, cap) → s.cols.length ≤ cap) ∧ ∀ c ∈ s.cols, c.cells.length ≤ c.cap

def Arr.Fits (a : Arr) : Prop := ∀ b cap, a.arr = some (b, cap) → a.count ≤ cap

/-! ## Lemmas -/

theorem room_room {mem : Nat → Bool} {m m' : JsonMem.Alloc} {blk cap len b c : Nat} (hl : len ≤ cap) (e : room mem m blk cap len = .ok (m', some (b, c))) : len + 1 ≤ c := by
  unfold room at e
  split at e
  · cases e; omega
  · split at e
    · next b' m1 _ =>
      cases e2 : Adt.release m1.heap blk with
      | error => rw [e2] at e; cases e
      | ok h => rw [e2, okBind] at e; cases e; unfold grow; omega
    · cases e

section
variable {ν : Type}

theorem column_fits {mem : Nat → Bool} {s s' : Table ν} (h : s.Fits) (e : column mem s = .ok s') : s'.Fits := by
  unfold column at e
  split at e
  · cases e
  · next blk cap harr =>
    split at e
    · cases e1 : room mem s.m blk cap s.cols.length with
      | error => rw [e1] at e; cases e
      | ok r =>
      rw [e1, okBind] at e
      rcases r with ⟨m, _ | ⟨b, c⟩⟩
      · cases e
      · dsimp only at e
        have hroom := room_room (h.1 _ _ harr) e1
        split at e
        · cases e
        · cases e
          refine ⟨?_, ?_⟩
          · intro b' cap' hb
            simp only [Option.some.injEq, Prod.mk.injEq] at hb
            simp only [List.length_append, List.length_singleton]
            omega
          · intro col hcol
            simp only [List.mem_append, List.mem_singleton] at hcol
            rcases hcol with hcol | rfl
            · exact h.2 col hcol
            · exact Nat.zero_le _
    · cases e; exact h

theorem place_fits {mem : Nat → Bool} {s s' : Table ν} (h : s.Fits) {cell : Csv.Cell ν} (e : place mem s cell = .ok s') : s'.Fits := by
  unfold place at e
  cases e1 : column mem s with
  | error => rw [e1] at e; cases e
  | ok t =>
    rw [e1, okBind] at e
    have ht := column_fits h e1
    cases e2 : rd t.cols t.colc with
    | error => rw [e2] at e; cases e
    | ok col =>
      rw [e2, okBind] at e
      obtain ⟨hi, hsplit⟩ := rd_split e2
      have hcol : col ∈ t.cols := by rw [hsplit]; simp
      cases e3 : room mem t.m col.blk col.cap col.cells.length with
      | error => rw [e3] at e; cases e
      | ok r =>
        rw [e3, okBind] at e
        rcases r with ⟨m, _ | ⟨b, c⟩⟩
        · cases e; exact ht
        · dsimp only at e
          rw [wr_ok hi, okBind] at e
          cases e
          have hroom := room_room (ht.2 col hcol) e3
          refine ⟨?_, ?_⟩
          · intro b' cap' hb
            have := ht.1 b' cap' hb
            rw [hsplit] at this
            simpa using this
          · intro x hx
            dsimp only at hx
            rw [List.mem_append, List.mem_cons] at hx
            rcases hx with hx | rfl | hx
            · exact ht.2 x (List.mem_of_mem_take hx)
            · dsimp only
              rw [List.length_append, List.length_singleton]
              exact hroom
            · exact ht.2 x (List.mem_of_mem_drop hx)

theorem advance_fits {delim d : Byte} {s s' : Table ν} {p p' : List Byte} (h : s.Fits) (e : advance delim s d p = some (s', p')) : s'.Fits := by
  unfold advance at e
  split at e
  · cases e; exact h
  · split at e
    · split at e
      · cases e; exact h
      · cases e
    · cases e; exact h

theorem tableLoop_fits {io : Json.NumIO ν} {mem : Nat → Bool} {delim : Byte} (n : Nat) : ∀ {s : Table ν} {p : List Byte} {err : Csv.Err} {s' : Table ν}, s.Fits →
    tableLoop io mem delim n s p = .ok (err, s') → s'.Fits := by
  induction n with
  | zero => intro s p err s' _ e; cases e
  | succ n ih =>
    intro s p err s' h e
    rw [tableLoop] at e
    cases e1 : Token.trim false p with
    | error => rw [e1] at e; cases e
    | ok k =>
      rw [e1, okBind] at e
      dsimp only at e
      cases e2 : rd (p.drop k) 0 with
      | error => rw [e2] at e; cases e
      | ok c =>
        rw [e2, okBind] at e
        split at e
        · cases e; exact h
        · cases e3 : Csv.readCell io delim (p.drop k) with
          | error => rw [e3] at e; cases e
          | ok r =>
            rw [e3, okBind] at e
            rcases r with _ | ⟨cell, d, q⟩
            · cases e; exact h
            · dsimp only at e
              cases e4 : place mem s cell with
              | error => rw [e4] at e; cases e
              | ok t =>
                rw [e4, okBind] at e
                have ht := place_fits h e4
                cases e5 : advance delim t d q with
                | none => rw [e5] at e; cases e; exact ht
                | some r =>
                  obtain ⟨t', q'⟩ := r
                  rw [e5] at e
                  dsimp only at e
                  have ht' := advance_fits ht e5
                  cases e6 : rd q' 0 with
                  | error => rw [e6] at e; cases e
                  | ok c =>
                    rw [e6, okBind] at e
                    split at e
                    · exact ih ht' e
                    · cases e; exact ht'

theorem mapM_named_fits {cols cols' : List (Col ν)} (h : cols.mapM named = .ok cols') (hf : ∀ c ∈ cols, c.cells.length ≤ c.cap) : cols'.length = cols.length ∧ ∀ c ∈ cols', c.cells.length ≤ c.cap := by
  induction cols generalizing cols' with
  | nil => rw [List.mapM_nil] at h; cases h; exact ⟨rfl, by simp⟩
  | cons c cs ih =>
    rw [List.mapM_cons] at h
    cases e1 : named c with
    | error => rw [e1] at h; cases h
    | ok c' =>
      rw [e1, okBind] at h
      cases e2 : cs.mapM named with
      | error => rw [e2] at h; cases h
      | ok cs' =>
        rw [e2, okBind] at h
        cases h
        obtain ⟨h1, h2⟩ := ih e2 (fun x hx => hf x (by simp [hx]))
        refine ⟨by simp [h1], ?_⟩
        intro x hx
        rw [List.mem_cons] at hx
        rcases hx with rfl | hx
        · have hc := hf c (by simp)
          unfold named at e1
          cases e3 : Csv.header ⟨c.name, c.cells⟩ with
          | error => rw [e3] at e1; cases e1
          | ok y =>
            rw [e3, okBind] at e1
            cases e1
            dsimp only
            unfold Csv.header at e3
            dsimp only at e3
            split at e3
            · next hcells => cases e3; rw [hcells, List.length_cons] at hc; dsimp only; omega
            · next hcells => cases e3; rw [hcells, List.length_cons] at hc; dsimp only; omega
            · cases e3
        · exact h2 x hx

/-- **C150, tables.**  No array of the table is filled over its end. -/
theorem C150_table_room {io : Json.NumIO ν} {mem : Nat → Bool} {hasHeader : Bool} {delim : Byte} {text : List Byte} {err : Csv.Err} {s : Table ν}
    (e : parseTable io mem hasHeader delim text = .ok (err, s)) : s.Fits := by
  have hs : (start (ν := ν) mem).Fits := by
    unfold start
    split <;> exact ⟨fun _ _ _ => Nat.zero_le _, fun _ h => by simp at h⟩
  unfold parseTable at e
  cases e1 : tableLoop io mem delim (text.length + 1) (start mem) text with
  | error => rw [e1] at e; cases e
  | ok r =>
    obtain ⟨err', t⟩ := r
    have ht := tableLoop_fits _ hs e1
    rw [e1, okBind] at e
    dsimp only at e
    split at e
    · cases e; exact ht
    · split at e
      · cases e
      · split at e
        · cases e; exact ht
        · split at e
          · cases e2 : t.cols.mapM named with
            | error => rw [e2] at e; cases e
            | ok cols =>
              rw [e2, okBind] at e
              cases e
              obtain ⟨h1, h2⟩ := mapM_named_fits e2 ht.2
              exact ⟨fun b cap hb => by dsimp only; rw [h1]; exact ht.1 b cap hb, h2⟩
          · cases e; exact ht

end

section
variable {ρ : Type} (F : Number.Reals ρ) (one : ρ) {mem : Nat → Bool}

theorem push_fits {a a' : Arr} {ok : Bool} (h : a.Fits) (e : push mem a = .ok (a', ok)) : a'.Fits ∧ a'.count = a.count + ok.toNat := by
  unfold push at e
  cases ha : a.arr with
  | none => rw [ha] at e; cases e; exact ⟨h, rfl⟩
  | some bc =>
    obtain ⟨blk, cap⟩ := bc
    rw [ha] at e
    dsimp only at e
    cases e1 : room mem a.m blk cap a.count with
    | error => rw [e1] at e; cases e
    | ok r =>
      rw [e1, okBind] at e
      rcases r with ⟨m, _ | ⟨b, c⟩⟩
      · cases e
        exact ⟨fun b' c' hb => h b' c' (ha.trans hb), rfl⟩
      · cases e
        refine ⟨?_, rfl⟩
        intro b' c' hb
        simp only [Option.some.injEq, Prod.mk.injEq] at hb
        have := room_room (h _ _ ha) e1
        dsimp only
        omega

theorem uriLoop_fits (n : Nat) : ∀ {a : Arr} {text : List Byte} {p : Nat} {r : List (UriDoc.Entry ρ) × List Byte × Arr}, a.Fits → uriLoop F one mem n a text p = .ok r →
    r.2.2.Fits ∧ r.2.2.count = a.count + r.1.length := by
  induction n with
  | zero => intro a text p r _ e; cases e
  | succ n ih =>
    intro a text p r h e
    rw [uriLoop] at e
    cases e1 : rd text p with
    | error => rw [e1] at e; cases e
    | ok c =>
    rw [e1, okBind] at e
    split at e
    · cases e; exact ⟨h, rfl⟩
    · cases e2 : UriDoc.scanTo UriDoc.nameStop (text.drop p) with
      | error => rw [e2] at e; cases e
      | ok k =>
      rw [e2, okBind] at e
      cases e3 : rd text (p + k) with
      | error => rw [e3] at e; cases e
      | ok c1 =>
      rw [e3, okBind] at e
      cases e4 : wr text (p + k) 0 with
      | error => rw [e4] at e; cases e
      | ok t1 =>
      rw [e4, okBind] at e
      cases e5 : UriDoc.decodeAt t1 p with
      | error => rw [e5] at e; cases e
      | ok t2 =>
      rw [e5, okBind] at e
      split at e
      · dsimp only at e
        cases e7 : UriDoc.scanTo UriDoc.valueStop (t2.drop (p + k + 1)) with
        | error => rw [e7] at e; cases e
        | ok k2 =>
        rw [e7, okBind] at e
        cases e8 : rd t2 (p + k + 1 + k2) with
        | error => rw [e8] at e; cases e
        | ok c2 =>
        rw [e8, okBind] at e
        cases e9 : wr t2 (p + k + 1 + k2) 0 with
        | error => rw [e9] at e; cases e
        | ok t3 =>
        rw [e9, okBind] at e
        cases e10 : UriDoc.decodeAt t3 (p + k + 1) with
        | error => rw [e10] at e; cases e
        | ok t4 =>
        rw [e10, okBind] at e
        cases e6 : push mem a with
        | error => rw [e6] at e; cases e
        | ok q =>
        obtain ⟨a', ok⟩ := q
        obtain ⟨h6, h7⟩ := push_fits h e6
        rw [e6, okBind] at e
        dsimp only at e
        split at e
        · cases e
        · next hok =>
          have hok' : ok = true := by simpa using hok
          subst hok'
          cases e11 : Number.parseNumberStrict F (t4.drop (p + k + 1)) with
          | error => rw [e11] at e; cases e
          | ok v =>
          rw [e11, okBind] at e
          split at e
          · cases e; exact ⟨h6, by rw [h7]; rfl⟩
          · cases e12 : uriLoop F one mem n a' t4 (p + k + 1 + k2 + 1) with
            | error => rw [e12] at e; cases e
            | ok q =>
              have := ih h6 e12
              rw [e12, okBind] at e; cases e
              exact ⟨this.1, by dsimp only; rw [this.2, h7]; simp; omega⟩
      · cases e6 : push mem a with
        | error => rw [e6] at e; cases e
        | ok q =>
        obtain ⟨a', ok⟩ := q
        obtain ⟨h6, h7⟩ := push_fits h e6
        rw [e6, okBind] at e
        dsimp only at e
        split at e
        · cases e
        · next hok =>
          have hok' : ok = true := by simpa using hok
          subst hok'
          split at e
          · cases e; exact ⟨h6, by rw [h7]; rfl⟩
          · cases e12 : uriLoop F one mem n a' t2 (p + k + 1) with
            | error => rw [e12] at e; cases e
            | ok q =>
              have := ih h6 e12
              rw [e12, okBind] at e; cases e
              exact ⟨this.1, by dsimp only; rw [this.2, h7]; simp; omega⟩

/-- **C150, URIs.**  The array of the object holds one node for the origin and one for every parameter, and has room for them. -/
theorem C150_uri_room {text : List Byte} {r : UriDoc.Parsed ρ} {a : Arr} (e : parseUri F one mem text = .ok (r, a)) : a.Fits ∧ a.count = (if r.origin = none then 0 else 1) + r.params.length := by
  have hs : (startArr mem).Fits ∧ (startArr mem).count = 0 := by
    unfold startArr
    split <;> exact ⟨fun _ _ _ => Nat.zero_le _, rfl⟩
  unfold parseUri at e
  cases e1 : Token.trim false text with
  | error => rw [e1] at e; cases e
  | ok b =>
  rw [e1, okBind] at e
  dsimp only at e
  cases e2 : rd text b with
  | error => rw [e2] at e; cases e
  | ok c =>
  rw [e2, okBind] at e
  split at e
  · cases e; exact hs
  · split at e
    · cases e3 : UriDoc.scanTo UriDoc.originStop (text.drop b) with
      | error => rw [e3] at e; cases e
      | ok k =>
      rw [e3, okBind] at e
      cases e4 : rd text (b + k) with
      | error => rw [e4] at e; cases e
      | ok c =>
      rw [e4, okBind] at e
      cases e5 : wr text (b + k) 0 with
      | error => rw [e5] at e; cases e
      | ok t =>
      rw [e5, okBind] at e
      cases e6 : push mem (startArr mem) with
      | error => rw [e6] at e; cases e
      | ok q =>
      obtain ⟨a', ok⟩ := q
      obtain ⟨h6, h7⟩ := push_fits hs.1 e6
      rw [hs.2] at h7
      rw [e6, okBind] at e
      dsimp only at e
      have ho : a'.count = if (if ok = true then some b else none) = none then 0 else 1 := by
        rw [h7]; cases ok <;> rfl
      split at e
      · cases e
        refine ⟨h6, ?_⟩
        dsimp only
        rw [ho]
        rfl
      · cases e7 : uriLoop F one mem (t.length + 1) a' t (b + k + 1) with
        | error => rw [e7] at e; cases e
        | ok q =>
          have := uriLoop_fits F one _ h6 e7
          rw [e7, okBind] at e; cases e
          refine ⟨this.1, ?_⟩
          rw [this.2, ho]
    · cases e7 : uriLoop F one mem (text.length + 1) (startArr mem) text (b + 1) with
      | error => rw [e7] at e; cases e
      | ok q =>
        have := uriLoop_fits F one _ hs.1 e7
        rw [e7, okBind] at e; cases e
        refine ⟨this.1, ?_⟩
        rw [this.2, hs.2]
        rfl

end

/-! ## Examples -/

/-- Nine cells, for which the first array is too small. -/
example : ∃ (s : Table Unit), parseTable noNumbers (fun i => decide (i ≤ 2)) false 0x2c#8 nine = .ok (.none, s) ∧ s.Fits := by
  obtain ⟨col, e, h⟩ := nine_accepted
  obtain ⟨s, h1, h2⟩ := C151_csv_cells_lost (mem := fun i => decide (i ≤ 2)) rfl rfl (fun i hi => decide_eq_false (by omega)) e
  exact ⟨s, h1, C150_table_room h1⟩

/-- `h?q`: two nodes. -/
example {ρ : Type} (F : Number.Reals ρ) (one : ρ) : ∃ r a, parseUri F one (fun _ => true) [0x68#8, 0x3f#8, 0x71#8, 0] = .ok (r, a) ∧ a.count = 2 := ⟨_, _, rfl, rfl⟩

end Zpl.ParserMem
