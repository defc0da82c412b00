import Verif.Parse.Csv
import Verif.Parse.JsonEnds

/-!
# Parsing any text as a table (code/source/parsers/csv.c:13-143)  -  C137

The model is that of `Parse/Csv`: here nothing is assumed of the text, but that it is terminated.

## Specification -/

namespace Zpl.Csv

open Zpl Zpl.Str Zpl.Token Zpl.Print Zpl.Fprintf Zpl.AdtText

variable {ν : Type} {io : Json.NumIO ν}

/-- The reader of numbers fails on some text, with this fault. -/
def ReaderFails (io : Json.NumIO ν) (f : Fault) : Prop := ∃ s rest : List Byte, Text s ∧ io.read (s ++ 0 :: rest) = .error f

/-! ## Proofs -/

theorem split_nul {p : List Byte} (h : (0 : Byte) ∈ p) : ∃ s r, Text s ∧ p = s ++ 0 :: r := by
  induction p with
  | nil => cases h
  | cons c p ih =>
    by_cases hc : c = 0
    · exact ⟨[], p, by simp [Text], by rw [hc]; rfl⟩
    · obtain ⟨s, r, hs, rfl⟩ := ih (by rcases List.mem_cons.1 h with h | h; exact absurd h.symm hc; exact h)
      exact ⟨c :: s, r, Text.cons.2 ⟨hc, hs⟩, rfl⟩

theorem trim_any (nl : Bool) {s : List Byte} (hs : Text s) (r : List Byte) : ∃ k, trim nl (s ++ 0 :: r) = .ok k ∧ k ≤ s.length := by
  obtain ⟨k, e, h, -⟩ := trim_ok nl hs r
  exact ⟨k, e, h⟩

theorem rd_any {s : List Byte} (hs : Text s) (r : List Byte) {k : Nat} (hk : k ≤ s.length) : ∃ c, rd (s ++ 0 :: r) k = .ok c ∧ (c = 0 ↔ k = s.length) := by
  rcases Nat.lt_or_ge k s.length with h | h
  · refine ⟨s[k], ?_, ⟨fun h0 => absurd h0 (hs _ (List.getElem_mem h)), fun h' => by omega⟩⟩
    rw [rd_ok (by simp; omega), List.getElem_append_left h]
  · obtain rfl : k = s.length := by omega
    exact ⟨0, by rw [rd_ok (by simp)]; simp, by simp⟩

theorem drop_text {s : List Byte} (hs : Text s) (k : Nat) : Text (s.drop k) := fun c hc => hs c (List.mem_of_mem_drop hc)

theorem take_text {s : List Byte} (hs : Text s) (k : Nat) : Text (s.take k) := fun c hc => hs c (List.mem_of_mem_take hc)

theorem drop_le {s r : List Byte} {k : Nat} (hk : k ≤ s.length) : (s ++ 0 :: r).drop k = s.drop k ++ 0 :: r := List.drop_append_of_le_length hk

theorem closing_any (n : Nat) : ∀ {s : List Byte} (_ : Text s) (r : List Byte), s.length < n → ∃ e, closing n (s ++ 0 :: r) = .ok e ∧ e ≤ s.length := by
  induction n with
  | zero => intros; omega
  | succ n ih =>
    intro s hs r hn
    obtain ⟨k, e, hk, -, -⟩ := skip_ok 0x22#8 hs r
    obtain ⟨c, ec, hc⟩ := rd_any hs r hk
    rw [closing, e, except_ok_bind, ec, except_ok_bind]
    by_cases h0 : c = 0
    · rw [if_neg (by simp [h0])]; exact ⟨k, rfl, hk⟩
    · have hk1 : k + 1 ≤ s.length := by have := mt hc.2 h0; omega
      obtain ⟨c1, ec1, hc1⟩ := rd_any hs r hk1
      rw [if_pos h0, ec1, except_ok_bind]
      by_cases h1 : c1 = 0x22#8
      · have hk2 : k + 2 ≤ s.length := by
          have : ¬ (k + 1 = s.length) := mt hc1.2 (by rw [h1]; decide)
          omega
        obtain ⟨c2, ec2, hc2⟩ := rd_any hs r hk2
        rw [if_pos h1, ec2, except_ok_bind]
        by_cases h2 : c2 = 0
        · rw [if_neg (by simp [h2])]; exact ⟨k + 2, rfl, hk2⟩
        · rw [if_pos h2, drop_le hk2]
          obtain ⟨e', ee, he⟩ := ih (drop_text hs (k + 2)) r (by simp; omega)
          rw [ee, except_ok_bind]
          refine ⟨k + 2 + e', rfl, ?_⟩
          simp at he
          omega
      · rw [if_neg h1]; exact ⟨k, rfl, hk⟩

theorem undouble_any (c : Byte) {s : List Byte} (hs : Text s) (r : List Byte) :
    ∃ c' s' x, undouble (c :: (s ++ 0 :: r)) = .ok (c' :: (s' ++ 0 :: (x ++ 0 :: r).tail)) ∧ Text s' ∧ s'.length + x.length = s.length := by
  by_cases hc : c = 0x22#8
  · cases s with
    | nil =>
      refine ⟨c, [], [], ?_, by simp [Text], rfl⟩
      rw [undouble, if_pos hc]
      rfl
    | cons d s =>
      have r1 : rd (d :: s ++ 0 :: r) 0 = .ok d := rfl
      rw [undouble, if_pos hc, r1, except_ok_bind]
      by_cases hd : d = 0x22#8
      · rw [if_pos hd]
        refine ⟨d, s, [0], ?_, (Text.cons.1 hs).2, by simp⟩
        have := dropFirst_ok (c := c) (by rw [hc]; decide) hs r
        rw [List.cons_append] at this
        rw [this]
        simp
      · rw [if_neg hd]
        exact ⟨c, d :: s, [], rfl, hs, rfl⟩
  · rw [undouble, if_neg hc]
    exact ⟨c, s, [], rfl, hs, rfl⟩

/-- The loop that takes away one of two quotes stays before the terminator, and leaves it where it is. -/
theorem unescape_any (n : Nat) : ∀ (c : Byte) {s : List Byte} (_ : Text s) (r : List Byte), s.length < n →
    ∃ t, unescape n (c :: (s ++ 0 :: r)) = .ok (t ++ 0 :: r) ∧ t.length = s.length + 1 ∧ (c = 0 → t.head? = some 0) := by
  induction n with
  | zero => intros; omega
  | succ n ih =>
    intro c s hs r hn
    obtain ⟨c', s', x, e, hs', hl⟩ := undouble_any c hs r
    have hc' : c = 0 → c' = 0 := by
      rintro rfl
      rw [undouble, if_neg (by decide)] at e
      exact (List.cons.inj (Except.ok.inj e)).1.symm
    rw [unescape, e, except_ok_bind]
    dsimp only
    cases s' with
    | nil =>
      have r1 : rd ([] ++ 0 :: (x ++ 0 :: r).tail) 0 = .ok (0 : Byte) := rfl
      rw [r1, except_ok_bind, if_neg (by simp)]
      cases x with
      | nil => exact ⟨[c'], rfl, by simp only [List.length_nil, List.length_cons] at hl ⊢; omega, fun h => by rw [hc' h]; rfl⟩
      | cons y x => exact ⟨c' :: 0 :: x, by simp, by simp at hl ⊢; omega, fun h => by rw [hc' h]; rfl⟩
    | cons d s' =>
      have r1 : rd (d :: s' ++ 0 :: (x ++ 0 :: r).tail) 0 = .ok d := rfl
      have hd := Text.cons.1 hs'
      rw [r1, except_ok_bind, if_pos hd.1, List.cons_append]
      obtain ⟨t, et, ht, -⟩ := ih d hd.2 (x ++ 0 :: r).tail (by simp at hl; omega)
      rw [et, except_ok_bind]
      cases x with
      | nil => exact ⟨c' :: t, rfl, by simp only [List.length_nil, List.length_cons] at hl ht ⊢; omega, fun h => by rw [hc' h]; rfl⟩
      | cons y x => exact ⟨c' :: (t ++ 0 :: x), by simp, by simp at hl ht ⊢; omega, fun h => by rw [hc' h]; rfl⟩

/-- What is known of a cell that was read: the rest of the text is terminated, also behind the character after the cell, and shorter. -/
def Next (p : List Byte) (d : Byte) (p' : List Byte) : Prop := (0 : Byte) ∈ p' ∧ (d ≠ 0 → (0 : Byte) ∈ p'.drop 1) ∧ p'.length < p.length

theorem readQuoted_safe {b : List Byte} (hb : (0 : Byte) ∈ b) :
    readQuoted (ν := ν) b = .ok none ∨ ∃ cell d p, readQuoted (ν := ν) b = .ok (some (cell, d, p)) ∧ (0 : Byte) ∈ p ∧ (d ≠ 0 → (0 : Byte) ∈ p.drop 1) ∧ p.length ≤ b.length := by
  obtain ⟨s, r, hs, rfl⟩ := split_nul hb
  obtain ⟨e, ee, he⟩ := closing_any ((s ++ 0 :: r).length + 1) hs r (by simp; omega)
  obtain ⟨c, ec, hc⟩ := rd_any hs r he
  unfold readQuoted
  rw [ee, except_ok_bind, ec, except_ok_bind]
  by_cases h0 : c = 0
  · left; rw [if_pos h0]
  · right
    have hlt : e < s.length := by have := mt hc.2 h0; omega
    rw [if_neg h0]
    -- the text behind the cell
    obtain ⟨u, x, v, hu, rfl⟩ : ∃ u x v, u.length = e ∧ s = u ++ x :: v :=
      ⟨s.take e, s[e], s.drop (e + 1), by simp; omega, by simp⟩
    have hv : Text v := fun c hc => hs c (by simp [hc])
    have htu : Text u := fun c hc => hs c (by simp [hc])
    have ew : wr (u ++ x :: v ++ 0 :: r) e 0 = .ok (u ++ 0 :: (v ++ 0 :: r)) := by
      have := Json.wr_at u x 0 (v ++ 0 :: r)
      rw [hu] at this
      simpa using this
    rw [ew, except_ok_bind]
    have ed : (u ++ 0 :: (v ++ 0 :: r)).drop (e + 1) = v ++ 0 :: r := by rw [← hu]; exact Json.drop_past _ _ _
    obtain ⟨k, ek, hk⟩ := trim_any true hv r
    rw [ed, ek, except_ok_bind]
    obtain ⟨d, hd, hd0⟩ := rd_any hv r hk
    have er : rd (u ++ 0 :: (v ++ 0 :: r)) (e + 1 + k) = .ok d := by
      rw [← hd]
      unfold rd
      have : (u ++ 0 :: (v ++ 0 :: r))[e + 1 + k]? = (v ++ 0 :: r)[k]? := by
        rw [← hu, List.getElem?_append_right (by omega), show u.length + 1 + k - u.length = k + 1 by omega]
        rfl
      rw [this]
    rw [er, except_ok_bind]
    -- the quotes within it
    obtain ⟨t, et, ht, hlen⟩ : ∃ t, unescape ((u ++ 0 :: (v ++ 0 :: r)).length + 1) (u ++ 0 :: (v ++ 0 :: r)) = .ok (t ++ 0 :: r) ∧ (0 : Byte) ∈ t ∧ t.length = u.length + 1 + v.length := by
      cases u with
      | nil =>
        obtain ⟨t, et, hl, h0⟩ := unescape_any (([] ++ 0 :: (v ++ 0 :: r)).length + 1) 0 hv r (by simp; omega)
        refine ⟨t, et, ?_, by simp at hl ⊢; omega⟩
        have := h0 rfl
        cases t with
        | nil => cases this
        | cons y t => simp at this; simp [this]
      | cons y u =>
        obtain ⟨t, et, hl, -⟩ := unescape_any ((y :: u ++ 0 :: (v ++ 0 :: r)).length + 1) y (Text.cons.1 htu).2 (v ++ 0 :: r) (by simp; omega)
        exact ⟨t ++ 0 :: v, by rw [show y :: u ++ 0 :: (v ++ 0 :: r) = y :: (u ++ 0 :: (v ++ 0 :: r)) from rfl] at et ⊢; rw [et]; simp, by simp, by simp at hl ⊢; omega⟩
    rw [et, except_ok_bind]
    obtain ⟨t1, t2, ht1, rfl⟩ := split_nul ht
    have el : strlen (t1 ++ 0 :: t2 ++ 0 :: r) = .ok t1.length := by
      rw [List.append_assoc, List.cons_append]; exact strlen_ok ht1 _
    rw [el, except_ok_bind]
    refine ⟨_, d, _, rfl, ?_, ?_, ?_⟩
    · rw [List.drop_append_of_le_length (by omega)]
      simp
    · intro h
      have : k < v.length := by have := mt hd0.2 h; omega
      rw [List.drop_drop, List.drop_append_of_le_length (by omega)]
      simp
    · rw [List.length_drop]
      simp at hlen ⊢
      omega

theorem plainEnd_any (delim : Byte) {s : List Byte} (hs : Text s) (r : List Byte) : ∃ e, plainEnd delim (s ++ 0 :: r) = .ok e ∧ e ≤ s.length := by
  induction s with
  | nil => exact ⟨0, by simp [plainEnd], by simp⟩
  | cons c s ih =>
    obtain ⟨e, ee, he⟩ := ih (Text.cons.1 hs).2
    rw [List.cons_append, plainEnd]
    split
    · rw [ee, except_ok_bind]; exact ⟨e + 1, rfl, by simp; omega⟩
    · exact ⟨0, rfl, by omega⟩

theorem backUp_any {c : Byte} (hc : isSpace c = false) (b : List Byte) : ∀ e, e ≤ b.length → ∃ e', backUp (c :: b) (e + 1) = .ok e' ∧ 1 ≤ e' ∧ e' ≤ e + 1
  | 0, _ => ⟨1, by rw [backUp, Json.rd_cons, except_ok_bind, hc]; rfl, by omega, by omega⟩
  | e + 1, h => by
    obtain ⟨e', h1, h2, h3⟩ := backUp_any hc b e (by omega)
    rw [backUp, rd_ok (by simp; omega), except_ok_bind]
    split
    · exact ⟨e', h1, h2, by omega⟩
    · exact ⟨_, rfl, by omega, by omega⟩

theorem numeric_any {s : List Byte} (hs : Text s) (r : List Byte) : ∃ x, numeric (s ++ 0 :: r) = .ok x := by
  have hf : ∀ c, ∃ x, firstOcc c [0x2b#8, 0x2d#8, 0x2e#8, 0x65#8, 0x45#8, 0x78#8, 0x58#8, 0] = .ok x := fun c => by
    obtain ⟨x, e, -⟩ := firstOcc_ok (s := [0x2b#8, 0x2d#8, 0x2e#8, 0x65#8, 0x45#8, 0x78#8, 0x58#8]) (by simp [Text]) [] c
    exact ⟨x, e⟩
  induction s with
  | nil =>
    obtain ⟨x, e⟩ := hf 0
    rw [List.nil_append, numeric, e, except_ok_bind]
    split
    · exact ⟨_, rfl⟩
    · exact ⟨_, by rw [if_neg (by simp)]⟩
  | cons c s ih =>
    obtain ⟨x, e⟩ := hf c
    obtain ⟨y, ey⟩ := ih (Text.cons.1 hs).2
    rw [List.cons_append, numeric, e, except_ok_bind]
    split
    · exact ⟨_, rfl⟩
    · exact ⟨y, by rw [if_pos (Text.cons.1 hs).1, ey]⟩

/-- A computation that fails only where the reader of numbers does. -/
def Only (io : Json.NumIO ν) {α : Type} (P : α → Prop) : Except Fault α → Prop
  | .ok a => P a
  | .error f => ReaderFails io f

theorem Only.bind {α β : Type} {P : α → Prop} {Q : β → Prop} {r : Except Fault α} {f : α → Except Fault β} (h : Only io P r) (h' : ∀ a, P a → Only io Q (f a)) : Only io Q (r >>= f) := by
  cases r with
  | error e => exact h
  | ok a => exact h' a h

theorem convert_safe (e : Nat) {s : List Byte} (hs : Text s) (r : List Byte) : Only io (fun _ => True) (convert io e (s ++ 0 :: r)) := by
  obtain ⟨x, ex⟩ := numeric_any hs r
  unfold convert
  rw [ex, except_ok_bind]
  cases x with
  | false => trivial
  | true =>
    rw [if_pos rfl]
    cases h : io.read (s ++ 0 :: r) with
    | error f => exact ⟨s, r, hs, h⟩
    | ok y =>
      rw [except_ok_bind]
      split <;> trivial

theorem readPlain_safe (delim : Byte) {c : Byte} (hc0 : c ≠ 0) (hc : isSpace c = false) {q : List Byte} (hq : (0 : Byte) ∈ q) :
    Only io (fun x => ∃ cell d p, x = some (cell, d, p) ∧ Next (c :: q) d p) (readPlain io delim (c :: q)) := by
  obtain ⟨s, r, hs, rfl⟩ := split_nul hq
  obtain ⟨e, ee, he⟩ := plainEnd_any delim hs r
  have hcs : Text (c :: s) := Text.cons.2 ⟨hc0, hs⟩
  obtain ⟨x, ex, hx⟩ := rd_any hcs r (k := e + 1) (by simp; omega)
  rw [List.cons_append] at ex
  unfold readPlain cutPlain
  rw [Json.drop_one, ee, except_ok_bind]
  dsimp only
  rw [ex, except_ok_bind]
  by_cases h0 : x = 0
  · have he' : e = s.length := by have := hx.1 h0; simp at this; exact this
    rw [if_neg (by simp [h0]), except_ok_bind]
    dsimp only
    refine (convert_safe (e + 1) hcs r).bind fun cell _ => ?_
    refine ⟨cell, 0, _, rfl, ?_, fun h => absurd rfl h, ?_⟩
    · rw [he']
      simp
    · simp [he']; omega
  · have he' : e < s.length := by
      have : ¬ (e + 1 = (c :: s).length) := mt hx.2 h0
      simp at this
      omega
    have ed : (c :: (s ++ 0 :: r)).drop (e + 1) = s.drop e ++ 0 :: r := by rw [List.drop_succ_cons, drop_le (by omega)]
    obtain ⟨k, ek, hk⟩ := trim_any true (drop_text hs e) r
    obtain ⟨d, hd, hd0⟩ := rd_any (drop_text hs e) r hk
    have er : rd (c :: (s ++ 0 :: r)) (e + 1 + k) = .ok d := by
      rw [← hd, ← ed]
      unfold rd
      rw [List.getElem?_drop]
    obtain ⟨e', eb, h1, h2⟩ := backUp_any hc (s ++ 0 :: r) e (by simp; omega)
    have ew : ∃ t, wr (c :: (s ++ 0 :: r)) e' 0 = .ok ((c :: s).take e' ++ 0 :: t) ∧ (c :: s).take e' ++ 0 :: t = (c :: s).set e' 0 ++ 0 :: r := by
      rw [wr_ok (by simp; omega)]
      refine ⟨(c :: s).drop (e' + 1) ++ 0 :: r, ?_, ?_⟩
      · rw [← List.cons_append, List.set_append_left _ _ (by simp; omega), List.set_eq_take_append_cons_drop, if_pos (by simp; omega)]
        simp
      · rw [List.set_eq_take_append_cons_drop, if_pos (by simp; omega)]
        simp
    obtain ⟨t, ew, ewt⟩ := ew
    rw [if_pos h0, ed, ek, except_ok_bind, er, except_ok_bind, eb, except_ok_bind, ew, except_ok_bind, except_ok_bind]
    dsimp only
    refine (convert_safe e' (take_text hcs e') t).bind fun cell _ => ?_
    simp only [List.length_drop] at hk hd0
    refine ⟨cell, d, _, rfl, ?_, ?_, ?_⟩
    · rw [ewt, List.drop_append_of_le_length (by simp; omega)]; simp
    · intro hd'
      have : k < s.length - e := by have := mt hd0.2 hd'; omega
      rw [ewt, List.drop_drop, List.drop_append_of_le_length (by simp; omega)]; simp
    · rw [ewt, List.length_drop]; simp; omega

theorem readCell_safe {delim : Byte} (hd : delim ≠ 0) {c : Byte} (hc0 : c ≠ 0) (hc : isSpace c = false) {q : List Byte} (hq : (0 : Byte) ∈ q) :
    Only io (fun x => x = none ∨ ∃ cell d p, x = some (cell, d, p) ∧ (0 : Byte) ∈ p ∧ (d ≠ 0 → (0 : Byte) ∈ p.drop 1) ∧ (p.length < (c :: q).length ∨ d = delim ∧ p = c :: q))
      (readCell io delim (c :: q)) := by
  unfold readCell
  rw [Json.rd_cons, except_ok_bind]
  split
  · rw [Json.drop_one]
    rcases readQuoted_safe (ν := ν) hq with h | ⟨cell, d, p, h, h1, h2, h3⟩
    · rw [h]; exact .inl rfl
    · rw [h]
      exact .inr ⟨cell, d, p, rfl, h1, h2, .inl (by simp; omega)⟩
  · split
    · rename_i h
      exact .inr ⟨_, c, _, rfl, List.mem_cons_of_mem _ hq, fun _ => hq, .inr ⟨h, rfl⟩⟩
    · have := readPlain_safe (io := io) delim hc0 hc hq
      cases h : readPlain io delim (c :: q) with
      | error f => rw [h] at this; exact this
      | ok x =>
        rw [h] at this
        obtain ⟨cell, d, p, rfl, h1, h2, h3⟩ := this
        exact .inr ⟨cell, d, p, rfl, h1, h2, .inl h3⟩

/-- The columns so far: as many as the number of the current one at least, each with a cell. -/
def Kept (s : St ν) : Prop := s.colc ≤ s.cols.length ∧ ∀ c ∈ s.cols, c.name = none ∧ c.cells ≠ []

theorem place_safe {s : St ν} (h : Kept s) (cell : Cell ν) : ∃ s', place s cell = .ok s' ∧ s'.colc = s.colc ∧ s'.total = s.total ∧ s.colc < s'.cols.length ∧ ∀ c ∈ s'.cols, c.name = none ∧ c.cells ≠ [] := by
  obtain ⟨h1, h2⟩ := h
  have key : ∀ cols : List (Column ν), s.colc < cols.length → (∀ c ∈ cols, c.name = none ∧ (c.cells ≠ [] ∨ c.cells = [])) →
      (∀ i (hi : i < cols.length), i ≠ s.colc → cols[i].cells ≠ []) →
      ∃ s' : St ν, (do
        let col ← rd cols s.colc
        let cols ← wr cols s.colc { col with cells := col.cells ++ [cell] }
        .ok { s with cols := cols } : Except Fault (St ν)) = .ok s' ∧ s'.colc = s.colc ∧ s'.total = s.total ∧ s.colc < s'.cols.length ∧ ∀ c ∈ s'.cols, c.name = none ∧ c.cells ≠ [] := by
    intro cols hlt hn hne
    rw [rd_ok hlt, except_ok_bind, wr_ok hlt, except_ok_bind]
    refine ⟨_, rfl, rfl, rfl, by simpa using hlt, ?_⟩
    intro c hc
    obtain ⟨i, hi, rfl⟩ := List.getElem_of_mem hc
    simp only [List.length_set] at hi
    rw [List.getElem_set]
    split
    · exact ⟨(hn _ (List.getElem_mem hlt)).1, by simp⟩
    · rename_i h; exact ⟨(hn _ (List.getElem_mem hi)).1, hne i hi (fun h' => h h'.symm)⟩
  unfold place
  by_cases h : s.colc ≥ s.cols.length
  · have e : (if s.colc ≥ s.cols.length then s.cols ++ [({ name := none, cells := [] } : Column ν)] else s.cols) = s.cols ++ [{ name := none, cells := [] }] := if_pos h
    rw [e]
    refine key _ (by simp; omega) ?_ ?_
    · intro c hc
      rcases List.mem_append.1 hc with hc | hc
      · exact ⟨(h2 c hc).1, .inl (h2 c hc).2⟩
      · simp at hc; subst hc; exact ⟨rfl, .inr rfl⟩
    · intro i hi hne
      simp at hi
      rw [List.getElem_append_left (by omega)]
      exact (h2 _ (List.getElem_mem _)).2
  · have e : (if s.colc ≥ s.cols.length then s.cols ++ [({ name := none, cells := [] } : Column ν)] else s.cols) = s.cols := if_neg h
    rw [e]
    exact key _ (by omega) (fun c hc => ⟨(h2 c hc).1, .inl (h2 c hc).2⟩) (fun i hi _ => (h2 _ (List.getElem_mem hi)).2)

theorem parseLoop_safe {delim : Byte} (hd : delim ≠ 0) (n : Nat) : ∀ (s : St ν) (p : List Byte), Kept s → (0 : Byte) ∈ p → p.length < n →
    Only io (fun x => ∀ c ∈ x.2.cols, c.name = none ∧ c.cells ≠ []) (parseLoop io delim n s p) := by
  induction n with
  | zero => intros; omega
  | succ n ih =>
    intro s p hk hp hn
    obtain ⟨t, r, ht, rfl⟩ := split_nul hp
    obtain ⟨k, ek, hk1, -, hk3⟩ := trim_ok false ht r
    rw [parseLoop, ek, except_ok_bind]
    dsimp only
    rw [drop_le hk1]
    cases hdk : t.drop k with
    | nil =>
      rw [List.nil_append, Json.rd_cons, except_ok_bind, if_pos rfl]
      exact hk.2
    | cons c u =>
      have hlt : k < t.length := by
        rcases Nat.lt_or_ge k t.length with h | h
        · exact h
        · rw [List.drop_eq_nil_of_le h] at hdk; cases hdk
      have hc : isSpace c = false := by
        obtain ⟨x, hx, hnb⟩ := hk3 hlt
        have : c = x := by
          have h1 : (t.drop k)[0]? = some c := by rw [hdk]; rfl
          rw [List.getElem?_drop, Nat.add_zero, hx] at h1
          exact (Option.some.inj h1).symm
        subst this
        rw [← Bool.not_eq_true, isSpace_iff]
        exact fun h => hnb ⟨h, by simp⟩
      have hcu : Text (c :: u) := by rw [← hdk]; exact drop_text ht k
      have hc0 := (Text.cons.1 hcu).1
      rw [List.cons_append, Json.rd_cons, except_ok_bind, if_neg hc0]
      have hlen : u.length + 1 ≤ t.length := by
        have := congrArg List.length hdk
        simp at this
        omega
      refine (readCell_safe hd hc0 hc (q := u ++ 0 :: r) (by simp)).bind fun x hx => ?_
      rcases hx with rfl | ⟨cell, d, p', rfl, h1, h2, h3⟩
      · exact hk.2
      · dsimp only
        obtain ⟨s', es, hs1, hs2, hs3, hs4⟩ := place_safe hk cell
        rw [es, except_ok_bind]
        have hp' : p'.length ≤ (u ++ 0 :: r).length + 1 := by
          rcases h3 with h | ⟨-, rfl⟩
          · simp at h ⊢; omega
          · simp
        cases ha : advance delim s' d p' with
        | none => exact hs4
        | some y =>
          obtain ⟨s'', p''⟩ := y
          dsimp only
          have hfin : Kept s'' ∧ (0 : Byte) ∈ p'' ∧ p''.length < (c :: (u ++ 0 :: r)).length := by
            unfold advance at ha
            split at ha
            · rename_i hdd
              cases ha
              refine ⟨⟨by simp; omega, hs4⟩, h2 (by rw [hdd]; exact hd), ?_⟩
              simp at hp' ⊢; omega
            · rename_i hdd
              have hlt' : p'.length < (c :: (u ++ 0 :: r)).length := by
                rcases h3 with h | ⟨h, -⟩
                · exact h
                · exact absurd h hdd
              split at ha
              · split at ha
                · cases ha
                  refine ⟨⟨Nat.zero_le _, hs4⟩, ?_, ?_⟩
                  · by_cases h0 : d = 0
                    · rw [if_neg (by simp [h0])]; exact h1
                    · rw [if_pos h0]; exact h2 h0
                  · by_cases h0 : d = 0
                    · rw [if_neg (by simp [h0])]; exact hlt'
                    · rw [if_pos h0, List.length_drop]; omega
                · cases ha
              · cases ha
                exact ⟨⟨by omega, hs4⟩, h1, hlt'⟩
          obtain ⟨g1, g2, g3⟩ := hfin
          obtain ⟨z, v, rfl⟩ : ∃ z v, p'' = z :: v := by
            cases p'' with
            | nil => cases g2
            | cons z v => exact ⟨z, v, rfl⟩
          rw [Json.rd_cons, except_ok_bind]
          split
          · refine ih _ _ g1 g2 ?_
            simp at g3 hn ⊢
            omega
          · exact g1.2

/-! ## Theorems -/

/-- **C137.** Whatever the text is, parsing it as a table without a header comes to an end, reads and writes only within the text and the tables it makes, and gives
    a table or an error: it fails in another way only if reading a number in a cell does.  No column is empty. -/
theorem C137_any_text {delim : Byte} (hd : delim ≠ 0) {s : List Byte} (hs : Text s) (rest : List Byte) :
    (∃ err cols, parse io false delim (s ++ 0 :: rest) = .ok (err, cols) ∧ ∀ c ∈ cols, c.cells ≠ []) ∨ ∃ f, ReaderFails io f ∧ parse io false delim (s ++ 0 :: rest) = .error f := by
  have h := parseLoop_safe (io := io) hd ((s ++ 0 :: rest).length + 1) { cols := [], colc := 0, total := 0 } (s ++ 0 :: rest) ⟨by simp, by simp⟩ (by simp) (by omega)
  unfold parse
  cases hp : parseLoop io delim ((s ++ 0 :: rest).length + 1) { cols := [], colc := 0, total := 0 } (s ++ 0 :: rest) with
  | error f => rw [hp] at h; exact .inr ⟨f, h, rfl⟩
  | ok x =>
    obtain ⟨err, st⟩ := x
    rw [hp] at h
    left
    rw [except_ok_bind]
    dsimp only
    split
    · exact ⟨_, _, rfl, fun c hc => (h c hc).2⟩
    · split
      · exact ⟨_, _, rfl, fun c hc => (h c hc).2⟩
      · exact ⟨_, _, rfl, fun c hc => (h c hc).2⟩

/-- With a header it is the same, but for a number in the first row. -/
theorem C137_header_partial {delim : Byte} (hd : delim ≠ 0) {s : List Byte} (hs : Text s) (rest : List Byte) {f : Fault} (h : parse io true delim (s ++ 0 :: rest) = .error f) :
    ReaderFails io f ∨ ∃ err cols, parse io false delim (s ++ 0 :: rest) = .ok (err, cols) ∧ ∃ c ∈ cols, ∃ n cells, c.cells = .number n :: cells := by
  have h' := parseLoop_safe (io := io) hd ((s ++ 0 :: rest).length + 1) { cols := [], colc := 0, total := 0 } (s ++ 0 :: rest) ⟨by simp, by simp⟩ (by simp) (by omega)
  unfold parse at h ⊢
  cases hp : parseLoop io delim ((s ++ 0 :: rest).length + 1) { cols := [], colc := 0, total := 0 } (s ++ 0 :: rest) with
  | error g => rw [hp] at h h'; cases h; exact .inl h'
  | ok x =>
    obtain ⟨err, st⟩ := x
    rw [hp] at h h'
    rw [except_ok_bind] at h ⊢
    dsimp only at h ⊢
    right
    by_cases he : err ≠ .none
    · rw [if_pos he] at h; cases h
    · rw [if_neg he] at h ⊢
      by_cases hl : st.cols.length = 0
      · rw [if_pos hl] at h; cases h
      · rw [if_neg hl] at h ⊢
        rw [if_pos rfl] at h
        refine ⟨_, _, rfl, ?_⟩
        have key : ∀ cols : List (Column ν), (∀ c ∈ cols, c.cells ≠ []) → (∀ c ∈ cols, ∀ n cells, c.cells ≠ .number n :: cells) → ∃ r, cols.mapM header = .ok r := by
          intro cols
          induction cols with
          | nil => intro _ _; exact ⟨[], rfl⟩
          | cons c cols ih =>
            intro h1 h2
            obtain ⟨r, er⟩ := ih (fun c hc => h1 c (by simp [hc])) (fun c hc => h2 c (by simp [hc]))
            rw [List.mapM_cons, er]
            have h3 := h1 c (by simp)
            have h4 := h2 c (by simp)
            unfold header
            cases hcc : c.cells with
            | nil => exact absurd hcc h3
            | cons x cells =>
              cases x with
              | quoted t => exact ⟨_, rfl⟩
              | plain t => exact ⟨_, rfl⟩
              | number n => exact absurd hcc (h4 n cells)
        by_cases hx : ∀ c ∈ st.cols, ∀ n cells, c.cells ≠ .number n :: cells
        · obtain ⟨r, er⟩ := key st.cols (fun c hc => (h' c hc).2) hx
          rw [er] at h
          cases h
        · simp only [not_forall] at hx
          obtain ⟨c, hc, n, cells, hx⟩ := hx
          exact ⟨c, hc, n, cells, not_not.1 hx⟩

/-- With the library's own reader of numbers it comes to an end too. -/
theorem C137_ends (pf : FloatPrinter) {delim : Byte} (hd : delim ≠ 0) {s : List Byte} (hs : Text s) (rest : List Byte) :
    parse (Number.jsonIO Number.doubles pf) false delim (s ++ 0 :: rest) ≠ .error .diverge := by
  intro h
  rcases C137_any_text (io := Number.jsonIO Number.doubles pf) hd hs rest with ⟨_, _, e, -⟩ | ⟨f, ⟨t, r, -, hf⟩, e⟩
  · rw [h] at e; cases e
  · rw [h] at e
    cases e
    exact (Json.parseNumber_ends (F := Number.doubles) (fun s => by
      have : Json.Ends (fun _ => True) (Number.doubles.read s) := (Json.strToF64_ends s).bind fun _ _ => trivial
      exact this.ne) (t ++ 0 :: r)).ne hf
/-- **C137 fails** in that rows of different lengths are not noticed as long as they grow: a row of one cell and then a row of two is accepted, with the second cell of
    the second row in the first row of its column, and writing the table reads outside of that column. -/
theorem C137_growing_rows (pf : FloatPrinter) {delim : Byte} (hd0 : delim ≠ 0) (hdq : delim ≠ 0x22#8) (hdb : ¬ Blank delim) {a b c : List Byte}
    (ha : (Cell.plain a : Cell ν).Ok io delim) (hb : (Cell.plain b : Cell ν).Ok io delim) (hc : (Cell.plain c : Cell ν).Ok io delim) (rest : List Byte) :
    parse io false delim (a ++ 0x0a#8 :: b ++ delim :: c ++ 0x0a#8 :: 0 :: rest) = .ok (.none, [{ name := none, cells := [.plain a, .plain b] }, { name := none, cells := [.plain c] }]) ∧
      ∀ o : Out, o.Ok → write io pf delim o [{ name := none, cells := [.plain a, .plain b] }, { name := none, cells := [.plain c] }] = .error .oob := by
  have hd : Delim delim := ⟨hd0, hdq, hdb⟩
  constructor
  · have hm : TokensOk io delim (tokens delim [.plain b, .plain c]) := tokens_ok hd (by
      intro x hx; simp only [List.mem_cons, List.not_mem_nil, or_false] at hx; rcases hx with rfl | rfl; exact hb; exact hc)
    have hs : ∀ ts : List (Cell ν × Byte), (∀ t ∈ ts, t.1 ≠ .quoted []) → Safe io delim ts := by
      intro ts h x y z e
      exact absurd rfl (h (.quoted [], y) (by rw [e]; simp))
    have e0 : a ++ 0x0a#8 :: b ++ delim :: c ++ 0x0a#8 :: 0 :: rest = textOf io delim (tokens delim [.plain a] ++ tokens delim [.plain b, .plain c]) ++ 0 :: rest := by
      simp [textOf, tokens, enc]
    have ht : textOf io delim (tokens delim [(.plain b : Cell ν), .plain c]) ≠ [] := by simp [textOf, tokens]
    have e1 := parse_row hd (io := io) (cs := [.plain a]) (by simpa using ha) (by simp) (tokens delim [.plain b, .plain c]) hm (hs _ (by simp [tokens])) rest
      ((a ++ 0x0a#8 :: b ++ delim :: c ++ 0x0a#8 :: 0 :: rest).length) [] [] 0 (by simp)
    have e2 := parse_row hd (io := io) (cs := [.plain b, .plain c]) (by
      intro x hx; simp only [List.mem_cons, List.not_mem_nil, or_false] at hx; rcases hx with rfl | rfl; exact hb; exact hc) (by simp) [] (by simp [TokensOk]) (hs _ (by simp [tokens])) rest
      ((a ++ 0x0a#8 :: b ++ delim :: c ++ 0x0a#8 :: 0 :: rest).length - 2) [] [{ name := none, cells := [.plain a] }] 0 (by simp)
    have en : (a ++ 0x0a#8 :: b ++ delim :: c ++ 0x0a#8 :: 0 :: rest).length - 2 + [(.plain b : Cell ν), .plain c].length = (a ++ 0x0a#8 :: b ++ delim :: c ++ 0x0a#8 :: 0 :: rest).length := by
      simp; omega
    rw [en] at e2
    rw [if_neg ht] at e1
    rw [List.append_nil, if_pos (by simp [textOf])] at e2
    unfold parse
    simp only [List.length_cons, List.length_nil, List.nil_append, addRow, Nat.add_sub_cancel, Nat.zero_add, Nat.sub_self] at e1 e2
    rw [← e0] at e1
    rw [e1, e2, except_ok_bind]
    rfl
  · intro o ho
    obtain ⟨o', e, -⟩ := writeRow_ok (io := io) pf hd0 (delim := delim) (cs := [.plain a, .plain c]) (by
      intro x hx; simp only [List.mem_cons, List.not_mem_nil, or_false] at hx; rcases hx with rfl | rfl; exact ha; exact hc) (by simp) ho
    have e2 : write io pf delim o [{ name := none, cells := [.plain a, .plain b] }, { name := none, cells := [.plain c] }] =
      writeRow io pf delim o [.plain a, .plain c] >>= fun o => writeRows io pf delim [{ name := none, cells := [.plain a, .plain b] }, { name := none, cells := [.plain c] }] 1 1 o := rfl
    rw [e2, e, except_ok_bind]
    rfl

/-! ## The hypotheses are met -/

/-- `"a"b,"c` and more of the kind: a reader of numbers that never fails leaves only the two outcomes. -/
example (rest : List Byte) : ∃ err cols, parse Json.noNumbers false 0x2c#8 ([0x22#8, 0x61#8, 0x22#8, 0x62#8, 0x2c#8, 0x22#8, 0x63#8] ++ 0 :: rest) = .ok (err, cols) ∧ ∀ c ∈ cols, c.cells ≠ [] := by
  rcases C137_any_text (io := Json.noNumbers) (delim := 0x2c#8) (by decide) (s := [0x22#8, 0x61#8, 0x22#8, 0x62#8, 0x2c#8, 0x22#8, 0x63#8]) (by simp [Text]) rest with h | ⟨f, ⟨s, r, -, hf⟩, -⟩
  · exact h
  · cases hf

/-- `g`, `h,i` -/
example (pf : FloatPrinter) (rest : List Byte) : parse Json.noNumbers false 0x2c#8 ([0x67#8, 0x0a#8, 0x68#8, 0x2c#8, 0x69#8, 0x0a#8, 0] ++ rest) =
    .ok (.none, [{ name := none, cells := [.plain [0x67#8], .plain [0x68#8]] }, { name := none, cells := [.plain [0x69#8]] }]) := by
  have h : ∀ x : Byte, x = 0x67#8 ∨ x = 0x68#8 ∨ x = 0x69#8 → (Cell.plain [x] : Cell Empty).Ok Json.noNumbers 0x2c#8 := by
    rintro x (rfl | rfl | rfl) <;> exact ⟨by simp [Text], by decide, ⟨by decide, by decide, ⟨_, _, rfl, by decide, by decide⟩, ⟨[], _, rfl, by decide⟩⟩, .inl ⟨_, List.mem_singleton.2 rfl, by decide⟩⟩
  exact (C137_growing_rows (io := Json.noNumbers) pf (a := [0x67#8]) (b := [0x68#8]) (c := [0x69#8]) (by decide) (by decide) (by unfold Blank; decide) (h _ (.inl rfl)) (h _ (.inr (.inl rfl))) (h _ (.inr (.inr rfl))) rest).1

end Zpl.Csv
