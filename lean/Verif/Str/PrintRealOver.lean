import Verif.Str.PrintReal

/-!
# Printing real numbers into too little room (code/source/core/print.c:204-280)  -  C127

Digit after digit is printed by a call that gets at least one byte of room, so the decimals are written however little room there is.
-/

namespace Zpl.PrintReal

open Zpl Zpl.Str Zpl.Print

/-- `f` has been written, with `r` bytes said to remain. -/
def curR (f text : List Byte) (r : Nat) : Cur := ⟨f ++ text.drop f.length, f.length, r⟩

theorem putU64_room {f text : List Byte} {r : Nat} (v : BitVec 64) (hr : 1 ≤ r) (h1 : (numeral false 10 v.toNat).length ≤ r)
    (h2 : f.length + (numeral false 10 v.toNat).length ≤ text.length) :
    ∃ r', 1 ≤ r' ∧ (r - (numeral false 10 v.toNat).length ≤ r') ∧ putU64 v (curR f text r) = .ok (curR (f ++ numeral false 10 v.toNat) text r') := by
  refine ⟨if (numeral false 10 v.toNat).length ≥ r then min r 1 else r - (numeral false 10 v.toNat).length, ?_, ?_, ?_⟩
  · split <;> omega
  · split <;> omega
  · unfold putU64 curR
    dsimp only
    rw [List.drop_append_of_le_length (Nat.le_refl _), List.drop_of_length_le (Nat.le_refl _), List.nil_append,
      printU64_ok (text.drop f.length) r v h1 (by rw [List.length_drop]; omega), except_ok_bind]
    dsimp only
    rw [List.take_append_of_le_length (Nat.le_refl _), List.take_of_length_le (Nat.le_refl _), List.drop_drop, List.length_append, ← List.append_assoc]

theorem decimals_room {n : Nat} {mult : Int} {arg : F64} {vs : List Nat} (hv : values n mult arg = .ok vs) (hd : ∀ v ∈ vs, (numeral false 10 v).length = 1) {f text : List Byte} {r : Nat}
    (hr : 1 ≤ r) (h2 : (f ++ vs.flatMap (numeral false 10)).length ≤ text.length) :
    ∃ r', 1 ≤ r' ∧ decimals n mult arg (curR f text r) = .ok (curR (f ++ vs.flatMap (numeral false 10)) text r') := by
  induction n generalizing mult arg vs f r with
  | zero => injection hv with hv; rw [← hv]; exact ⟨r, hr, by simp [decimals]⟩
  | succ n ih =>
    rw [values] at hv
    cases h : F64.toU64 (F64.mul arg (F64.ofInt mult)) with
    | error e => rw [h] at hv; cases hv
    | ok v =>
      rw [h, except_ok_bind] at hv
      dsimp only at hv
      split at hv
      · next hm =>
        cases hw : values n (mult * 10) (F64.sub arg (F64.div (F64.ofInt v.toNat) (F64.ofInt mult))) with
        | error e => rw [hw] at hv; cases hv
        | ok ws =>
          rw [hw, except_ok_bind] at hv
          injection hv with hv
          subst hv
          rw [List.flatMap_cons, ← List.append_assoc] at h2 ⊢
          have l1 : (f ++ numeral false 10 v.toNat).length ≤ (f ++ numeral false 10 v.toNat ++ ws.flatMap (numeral false 10)).length := by simp
          obtain ⟨r1, g1, -, e1⟩ := putU64_room (f := f) (text := text) v hr (by rw [hd v.toNat (by simp)]; exact hr) (by rw [← List.length_append]; omega)
          obtain ⟨r2, g2, e2⟩ := ih hw (fun x hx => hd x (by simp [hx])) g1 h2
          refine ⟨r2, g2, ?_⟩
          rw [decimals, h, except_ok_bind, e1, except_ok_bind]
          dsimp only
          rw [if_pos hm]
          exact e2
      · cases hv

theorem values_length {n : Nat} {mult : Int} {arg : F64} {vs : List Nat} (hv : values n mult arg = .ok vs) : vs.length = n := by
  induction n generalizing mult arg vs with
  | zero => injection hv with hv; rw [← hv]; rfl
  | succ n ih =>
    rw [values] at hv
    cases h : F64.toU64 (F64.mul arg (F64.ofInt mult)) with
    | error e => rw [h] at hv; cases hv
    | ok v =>
      rw [h, except_ok_bind] at hv
      dsimp only at hv
      split at hv
      · cases hw : values n (mult * 10) (F64.sub arg (F64.div (F64.ofInt v.toNat) (F64.ofInt mult))) with
        | error e => rw [hw] at hv; cases hv
        | ok ws =>
          rw [hw, except_ok_bind] at hv
          injection hv with hv
          rw [← hv, List.length_cons, ih hw]
      · cases hv

theorem numeral_pos (v : Nat) : 1 ≤ (numeral false 10 v).length := by
  obtain ⟨d, ds, e⟩ := digits_cons (b := 10) (by omega) v
  rw [numeral, e]
  simp

theorem single_digits (vs : List Nat) (h : (vs.flatMap (numeral false 10)).length = vs.length) : ∀ v ∈ vs, (numeral false 10 v).length = 1 := by
  have key : ∀ vs : List Nat, vs.length ≤ (vs.flatMap (numeral false 10)).length := by
    intro vs
    induction vs with
    | nil => simp
    | cons v vs ih =>
      rw [List.flatMap_cons, List.length_append, List.length_cons]
      have := numeral_pos v
      omega
  induction vs with
  | nil => simp
  | cons v vs ih =>
    rw [List.flatMap_cons, List.length_append, List.length_cons] at h
    have h1 := numeral_pos v
    have h2 := key vs
    intro x hx
    rcases List.mem_cons.1 hx with rfl | hx
    · omega
    · exact ih (by omega) x hx

/-- The decimals of a positive number are written, whatever room there is behind the point. -/
theorem magnitude_room {precision : Int} {x : ℚ} (hr : F64.Representable x) (h0 : 0 ≤ x) (h64 : x < F64.pow2 64) {vs : List Nat}
    (hv : values (places precision) 10 (.fin (x - ⌊x⌋)) = .ok vs) (hd : ∀ v ∈ vs, (numeral false 10 v).length = 1) (hp : 0 < places precision) {text : List Byte} {r : Nat} {g : List Byte}
    (hg : g = numeral false 10 ⌊x⌋.toNat ++ 0x2e#8 :: vs.flatMap (numeral false 10)) (h1 : (numeral false 10 ⌊x⌋.toNat).length + 1 < r) (h2 : g.length ≤ text.length) :
    ∃ r', 1 ≤ r' ∧ magnitude false precision (.fin x) (curR [] text r) = .ok (curR g text r') := by
  obtain ⟨e1, e2⟩ := split hr h0 h64
  have hf0 : 0 ≤ ⌊x⌋ := Int.floor_nonneg.2 h0
  have hlt : ⌊x⌋.toNat < 2 ^ 64 := by
    have : (⌊x⌋ : ℚ) < ((2 ^ 64 : ℤ) : ℚ) := by
      refine lt_of_le_of_lt (Int.floor_le x) (h64.trans_eq ?_)
      norm_num [F64.pow2_eq]
    have : ⌊x⌋ < 2 ^ 64 := by exact_mod_cast this
    omega
  have hvn : (BitVec.ofNat 64 ⌊x⌋.toNat).toNat = ⌊x⌋.toNat := by rw [BitVec.toNat_ofNat]; exact Nat.mod_eq_of_lt hlt
  have hl : (numeral false 10 ⌊x⌋.toNat).length + 1 ≤ g.length := by rw [hg]; simp
  obtain ⟨r1, g1, g2, e3⟩ := putU64_room (f := []) (text := text) (r := r) (BitVec.ofNat 64 ⌊x⌋.toNat) (by omega) (by rw [hvn]; omega) (by rw [hvn]; simp only [List.length_nil]; omega)
  rw [hvn] at g2 e3
  rw [List.nil_append] at e3
  have hput : put 0x2e#8 (curR (numeral false 10 ⌊x⌋.toNat) text r1) = .ok (curR (numeral false 10 ⌊x⌋.toNat ++ [0x2e#8]) text (r1 - 1)) := by
    unfold put curR
    dsimp only
    rw [if_pos (by omega), wr_next _ text _ (by omega), except_ok_bind, List.length_append, List.length_singleton]
  obtain ⟨r2, g3, e4⟩ := decimals_room hv hd (f := numeral false 10 ⌊x⌋.toNat ++ [0x2e#8]) (text := text) (r := r1 - 1) (by omega) (by rw [List.append_assoc, List.singleton_append, ← hg]; exact h2)
  refine ⟨r2, g3, ?_⟩
  rw [magnitude, e1, except_ok_bind, e3, except_ok_bind]
  dsimp only
  rw [hvn, show (⌊x⌋.toNat : ℤ) = ⌊x⌋ by omega, e2]
  change (if false = true ∨ places precision > 0 then _ else _) = _
  rw [if_pos (.inr hp), hput, except_ok_bind]
  rw [List.append_assoc, List.singleton_append, ← hg] at e4
  exact e4

/-- **C127 (deviation).**  If there is room for the whole part and the point, all decimals and the terminator are written, also those for which there is no room; only the result (-1) tells. -/
theorem C127_overruns (c : RealConv) (prec : Count) (hprec : ∀ n, prec = .num n → n < 2 ^ 31) (rest : List Byte) {args args1 : List Arg} {p : Option Nat} {b : BitVec 64} {q : ℚ}
    (hp : precisionOf prec args = some (p, .real b :: args1)) (hp0 : p ≠ some 0) (hb : F64.ofBits b = .fin q) (h0 : 0 < q) (hq : Printable (p.getD 6) q) {out : List Byte}
    (ho : out = decimal false false (p.getD 6) q) (text : List Byte) (ht : out.length < text.length) (maxLen : Nat) (hm : (numeral false 10 ⌊q⌋.toNat).length + 1 < maxLen) (hn : maxLen ≤ out.length) :
    snprintf f64 text maxLen (spellRealDirective { precision := prec, conv := c } ++ 0 :: rest) args = .ok (out ++ 0 :: text.drop (out.length + 1), -1) := by
  have habs : |q| = q := abs_of_pos h0
  have hp1 : 0 < p.getD 6 := by
    cases p with
    | none => simp
    | some k => simp only [Option.getD_some]; rcases Nat.eq_zero_or_pos k with rfl | h; exact absurd rfl hp0; exact h
  obtain ⟨vs, hv, hs⟩ := printable_spelled hq
  have h64 : q < F64.pow2 64 := by have := hq.1; rwa [habs] at this
  rw [habs] at hv
  have hsp := hs false false
  rw [spelled, if_neg (ne_of_gt h0), if_neg (not_lt.2 h0.le), habs, if_neg (by decide), List.nil_append, if_pos (.inr hp1), ← ho] at hsp
  have hdec := ho
  rw [decimal, if_neg (ne_of_gt h0), if_neg (not_lt.2 h0.le), habs, if_neg (by decide), List.nil_append, if_pos (.inr hp1)] at hdec
  have hfl : vs.flatMap (numeral false 10) = lastDigits (p.getD 6) ⌊q * 10 ^ (p.getD 6)⌋.toNat := by
    have := hsp.trans hdec
    have h1 := List.append_cancel_left this
    exact (List.cons.inj h1).2
  have hd := single_digits vs (by rw [hfl, values_length hv]; simp [lastDigits])
  have hval : (Item.real { precision := prec, conv := c }).Valid := ⟨fun n hn => by simp at hn, fun n hn => hprec n hn⟩
  obtain ⟨info, h, hR, ha⟩ := parse_as (plainOf { precision := prec, conv := c }) hval (letter_real c) (0 :: rest) (w := none) (args1 := args) rfl hp
  have hpl := places_eq hR.precision
  have hmin : info.minus = false := by rw [hR.minus]; simp [plainOf]
  have halt : info.alt = false := by rw [ha]; simp [plainOf]
  have hwd : info.width = 0 := by rw [hR.width]; rfl
  obtain ⟨r', hr', hmag⟩ := magnitude_room (precision := info.precision) (F64.ofBits_representable hb) h0.le h64 (by rw [hpl]; exact hv) hd (by rw [hpl]; exact hp1) (text := text) (r := maxLen) (g := out)
    hsp.symm hm (by omega)
  have hdig : digitsOf info (.fin q) ⟨text, 0, maxLen⟩ = .ok (curR out text r') := by
    unfold digitsOf
    rw [if_neg (by intro h; injection h with h; exact (ne_of_gt h0) h), if_neg (show ¬ F64.lt (.fin q) (.fin 0) = true from by simpa [F64.lt] using h0.le), hmin, if_neg (by decide), halt]
    exact hmag
  have hpr : printF64 text maxLen info (.fin q) = .ok (out ++ text.drop out.length, out.length) := by
    rw [printF64, hdig, except_ok_bind]
    unfold curR
    dsimp only
    rw [hwd, if_neg (by omega)]
  have hconv : convert f64 text maxLen info (spellReal c :: 0 :: rest) (.real b :: args1) = .ok ((out ++ text.drop out.length, out.length), 0 :: rest, args1) := by
    refine convert_real f64 text maxLen info c (0 :: rest) ?_
    rw [f64, hb, hpr]
    rfl
  have hend : ∀ (fuel rem : Nat), go f64 (fuel + 2) (0 :: rest) args1 (text.drop out.length) (if out.length ≥ maxLen then min maxLen 1 else rem) = .ok (0 :: text.drop (out.length + 1), 1) := by
    intro fuel rem
    have := go_end f64 fuel (last := []) (by simp [Literal]) rest args1 (text.drop out.length) (if out.length ≥ maxLen then min maxLen 1 else rem) (by rw [if_pos hn]; omega)
      (by rw [List.length_drop]; simp only [List.length_nil]; omega)
    rw [List.nil_append, List.nil_append, List.drop_drop] at this
    exact this
  obtain ⟨k, hk⟩ : ∃ k, (spellRealDirective { precision := prec, conv := c } ++ 0 :: rest).length + 1 = k + 3 := ⟨(spellRealDirective { precision := prec, conv := c } ++ 0 :: rest).length - 2, by
    simp only [spellRealDirective, List.length_append, List.length_cons]; omega⟩
  obtain ⟨dir, hdir⟩ := spellItem_cons (.real { precision := prec, conv := c })
  rw [spellItem] at hdir
  have h' : parse (spellRealDirective { precision := prec, conv := c } ++ 0 :: rest) args = .ok (info, spellReal c :: 0 :: rest, .real b :: args1) := h
  rw [snprintf, hk]
  rw [hdir] at h' ⊢
  rw [go, List.cons_append, rd_cons, except_ok_bind, if_neg (by decide), if_pos (by omega)]
  have hlit := literal_ok (s := []) (by simp [Literal]) (.inr rfl) (dir ++ 0 :: rest) text (Nat.zero_le _)
  rw [List.nil_append] at hlit
  rw [hlit, except_ok_bind]
  dsimp only
  rw [List.length_nil, List.drop_zero, ← List.cons_append, h', except_ok_bind]
  dsimp only
  rw [List.nil_append, List.drop_zero, List.drop_zero, hconv, except_ok_bind]
  dsimp only
  rw [List.drop_append_of_le_length (Nat.le_refl _), List.drop_of_length_le (Nat.le_refl _), List.nil_append, hend, except_ok_bind]
  dsimp only
  rw [except_ok_bind]
  dsimp only
  rw [if_pos (by omega), List.take_append_of_le_length (Nat.le_refl _), List.take_of_length_le (Nat.le_refl _), List.take_zero, List.nil_append]

/-- `%f` of 7 with `max_len` 4 writes nine bytes. -/
example (rest text : List Byte) (ht : 8 < text.length) :
    snprintf f64 text 4 (0x25#8 :: 0x66#8 :: 0 :: rest) [.real 0x401c000000000000#64] = .ok ([0x37#8, 0x2e#8, 0x30#8, 0x30#8, 0x30#8, 0x30#8, 0x30#8, 0x30#8, 0#8] ++ text.drop 9, -1) := by
  have hb : F64.ofBits 0x401c000000000000#64 = .fin 7 := by decide +kernel
  have hd : decimal false false 6 7 = [0x37#8, 0x2e#8, 0x30#8, 0x30#8, 0x30#8, 0x30#8, 0x30#8, 0x30#8] := by decide +kernel
  have h7 : ⌊(7 : ℚ)⌋ = 7 := by norm_num
  exact C127_overruns .f .none (by simp) rest (p := none) rfl (by simp) hb (by norm_num) ⟨by norm_num [F64.pow2_eq], by simp, .inr (.inl ⟨7, by norm_num⟩)⟩ hd.symm text (by simpa using ht) 4
    (by rw [h7]; decide +kernel) (by decide)

end Zpl.PrintReal
