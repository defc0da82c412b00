/-
  Printing the text of a node with escapes: /repo/code/source/adt.c 566-591.
-/
import Verif.Str.Fprintf
import Verif.Str.Token

namespace Zpl.AdtText

open Zpl Zpl.Str Zpl.Token Zpl.Print Zpl.Fprintf

/-- adt.c:582: is `c` a character that ends no text and that `zpl_strchr` finds in the list of characters to escape? -/
def listed (escaped : List Byte) (c : Byte) : Except Fault Bool :=
  if c ≠ 0 then (firstOcc c escaped).map Option.isSome else .ok false

/-- adt.c:582-586: print the escape and step over the character `*p`, `k` bytes into `p`. -/
def printEscape (pf : FloatPrinter) (sym : List Byte) (hit : Bool) (o : Out) (p : List Byte) (k : Nat) (c : Byte) : Except Fault (Out × List Byte) :=
  if hit then do
    let o ← fprintf pf o [0x25#8, 0x73#8, 0x25#8, 0x63#8, 0] [.str (some sym), .int (c.signExtend 32)]
    .ok (o, p.drop (k + 1))
  else .ok (o, p.drop k)

/-- adt.c:579-588, the loop of `zpl_adt_print_string`; `p` is the text still to print. The 64-bit length handed to `%.*s` is read as an `int`,
    as the x86-64 and AArch64 calling conventions do. -/
def printLoop (pf : FloatPrinter) (escaped sym : List Byte) : Nat → Out → List Byte → Except Fault Out
  | 0, _, _ => .error .diverge
  | n + 1, o, p => do
    let k ← skipAny p escaped
    let o ← fprintf pf o [0x25#8, 0x2e#8, 0x2a#8, 0x73#8, 0] [.int (BitVec.ofNat 32 k), .str (some p)]
    let c ← rd p k
    let hit ← listed escaped c
    let (o, q) ← printEscape pf sym hit o p k c
    if (← rd q 0) ≠ 0 then printLoop pf escaped sym n o q else .ok o

/-- adt.c:566-591 `zpl_adt_print_string`, for a node of a text type; `none` is a null text. -/
def printString (pf : FloatPrinter) (escaped sym : List Byte) (o : Out) : Option (List Byte) → Except Fault Out
  | none => .ok o
  | some p => printLoop pf escaped sym (p.length + 1) o p

/-! ## Specification -/

/-- The text with `sym` put before each character that is in the list `E`. -/
def escape (E sym s : List Byte) : List Byte := s.flatMap fun c => if c ∈ E then sym ++ [c] else [c]

/-- No run of characters that need no escape is longer than what one call of the printer can hold. -/
def Runs (E : List Byte) (s : List Byte) : Prop := ∀ a m b, s = a ++ m ++ b → (∀ c ∈ m, c ∉ E) → m.length + 1 < maxLen

/-! ## Proofs -/

theorem escape_nil (E sym : List Byte) : escape E sym [] = [] := rfl

theorem escape_plain {E m : List Byte} (sym s : List Byte) (h : ∀ c ∈ m, c ∉ E) : escape E sym (m ++ s) = m ++ escape E sym s := by
  induction m with
  | nil => rfl
  | cons c m ih =>
    have hc := h c (by simp)
    have := ih (fun x hx => h x (by simp [hx]))
    rw [List.cons_append, escape, List.flatMap_cons, if_neg hc, ← escape, this]
    rfl

theorem escape_hit {E : List Byte} {c : Byte} (sym s : List Byte) (h : c ∈ E) : escape E sym (c :: s) = sym ++ c :: escape E sym s := by
  rw [escape, List.flatMap_cons, if_pos h, ← escape]
  simp

theorem listed_ok {E : List Byte} (hE : Text E) (re : List Byte) (c : Byte) : listed (E ++ 0 :: re) c = .ok (decide (c ≠ 0 ∧ c ∈ E)) := by
  unfold listed
  by_cases h : c = 0
  · simp [h]
  · rw [if_pos h]
    obtain ⟨o, e, ho⟩ := firstOcc_none hE re h
    rw [e]
    cases o with
    | none => simp [Except.map, ho.1 rfl]
    | some i =>
      have : c ∈ E := Classical.byContradiction fun hn => by simpa using ho.2 hn
      rw [Except.map, decide_eq_true ⟨h, this⟩]
      rfl

/-- Cutting a text at the first character that is in a list. -/
theorem cut {E s : List Byte} {k : Nat} (h : FirstOrEnd (fun j => ∃ c ∈ E, s[j]? = some c) s.length k) :
    ∃ m t, s = m ++ t ∧ m.length = k ∧ (∀ c ∈ m, c ∉ E) ∧ (t = [] ∨ ∃ c u, t = c :: u ∧ c ∈ E) := by
  obtain ⟨h1, h2, h3⟩ := h
  refine ⟨s.take k, s.drop k, (List.take_append_drop k s).symm, by simp [h1], fun c hc hE => ?_, ?_⟩
  · obtain ⟨j, hj, rfl⟩ := List.getElem_of_mem hc
    have hj' : j < k := by simp at hj; omega
    exact h2 j hj' ⟨_, hE, by rw [List.getElem?_eq_getElem (by omega)]; simp⟩
  · by_cases hk : k = s.length
    · left; simp [hk]
    · right
      obtain ⟨c, hc, e⟩ := h3 (by omega)
      have hlt : k < s.length := by omega
      refine ⟨s[k], s.drop (k + 1), List.drop_eq_getElem_cons hlt, ?_⟩
      rw [List.getElem?_eq_getElem hlt] at e
      rw [Option.some.inj e]
      exact hc

theorem char_int (c : Byte) : (c.signExtend 32).truncate 8 = c := by
  revert c
  decide +kernel

theorem printLoop_ok (pf : FloatPrinter) {E sym : List Byte} (hE : Text E) (hy : Text sym) (re ry : List Byte) (hl : sym.length + 2 < maxLen) (n : Nat) :
    ∀ {o : Out} (_ : o.Ok) {s : List Byte} (_ : Text s) (_ : Runs E s) (rest : List Byte), s.length < n →
      Appends o (escape E sym s) (printLoop pf (E ++ 0 :: re) (sym ++ 0 :: ry) n o (s ++ 0 :: rest)) := by
  induction n with
  | zero => intros; omega
  | succ n ih =>
    intro o ho s hs hr rest hn
    obtain ⟨k, e1, hk⟩ := C70_skip_any hs hE rest re
    obtain ⟨m, t, rfl, rfl, hm, ht⟩ := cut hk
    have hms : Text m := fun c hc => hs c (by simp [hc])
    have hts : Text t := fun c hc => hs c (by simp [hc])
    have hml := hr [] m t (by simp) hm
    rw [printLoop, e1, except_ok_bind, escape_plain sym t hm]
    rw [List.append_assoc]
    refine Appends.bind (fprintf_prec pf ho hms (t ++ 0 :: rest) [] hml) fun o1 ho1 => ?_
    rcases ht with rfl | ⟨c, u, rfl, hc⟩
    · have h1 : rd (m ++ ([] ++ 0 :: rest)) m.length = .ok 0 := by rw [rd_ok (by simp)]; simp
      rw [h1, except_ok_bind, listed_ok hE, except_ok_bind]
      simp only [printEscape, escape_nil]
      rw [if_neg (by simp), except_ok_bind]
      have h2 : rd (List.drop m.length (m ++ ([] ++ 0 :: rest))) 0 = .ok 0 := by simp [rd]
      simp only [h2, except_ok_bind]
      rw [if_neg (by simp)]
      exact Appends.pure ho1
    · have hc0 := (Text.cons.1 hts).1
      have hus := (Text.cons.1 hts).2
      have h1 : rd (m ++ (c :: u ++ 0 :: rest)) m.length = .ok c := by rw [rd_ok (by simp)]; simp
      rw [h1, except_ok_bind, listed_ok hE, except_ok_bind, escape_hit sym u hc]
      simp only [printEscape]
      rw [if_pos (decide_eq_true ⟨hc0, hc⟩), bind_assoc]
      have hb := fprintf_sc pf ho1 hy ry (c := c.signExtend 32) (by rw [char_int]; exact hc0) [] hl
      rw [char_int] at hb
      have hsplit : sym ++ c :: escape E sym u = (sym ++ [c]) ++ escape E sym u := by simp
      rw [hsplit]
      refine Appends.bind hb fun o2 ho2 => ?_
      rw [except_ok_bind]
      have hd : List.drop (m.length + 1) (m ++ (c :: u ++ 0 :: rest)) = u ++ 0 :: rest := by
        rw [← List.drop_drop]; simp
      simp only [hd]
      cases u with
      | nil =>
        have h2 : rd (([] : List Byte) ++ 0 :: rest) 0 = .ok 0 := by simp [rd]
        rw [h2, except_ok_bind, if_neg (by simp), escape_nil]
        exact Appends.pure ho2
      | cons d u =>
        have h2 : rd (d :: u ++ 0 :: rest) 0 = .ok d := by simp [rd]
        rw [h2, except_ok_bind, if_pos (Text.cons.1 hus).1]
        refine ih ho2 hus (fun a q b hq => ?_) rest (by simp at hn ⊢; omega)
        exact hr (m ++ c :: a) q b (by simp [hq])

theorem printString_ok (pf : FloatPrinter) {E sym : List Byte} (hE : Text E) (hy : Text sym) (re ry : List Byte) (hl : sym.length + 2 < maxLen)
    {o : Out} (ho : o.Ok) {s : List Byte} (hs : Text s) (hr : Runs E s) (rest : List Byte) :
    Appends o (escape E sym s) (printString pf (E ++ 0 :: re) (sym ++ 0 :: ry) o (some (s ++ 0 :: rest))) :=
  printLoop_ok pf hE hy re ry hl _ ho hs hr rest (by simp; omega)

end Zpl.AdtText
