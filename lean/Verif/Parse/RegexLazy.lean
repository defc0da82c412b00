import Verif.Parse.Regex

/-!
# Shortest repetitions in regular expressions (code/source/regex.c)

`c+?` and `c*?` are both compiled to the operation 12 (`ZPL_RE_OP_ONE_OR_MORE_SHORTEST`, regex.c:604-624) in front of what `c` is compiled to; it is run at
regex.c:298-307.  The model is that of `Verif.Parse.Regex`.  Property C170.
-/

namespace Zpl.Regex

open Zpl.Str

/-! ## Specification -/

/-- `c+?p` (or `c*?p` for `star`) matches from `i` to `j` as usual: some number of characters of `c`, then `p`. -/
def MatchesLazy (star : Bool) (text : List Byte) (c : Cls) (p : Pat) (i j : Nat) : Prop :=
  ∃ k cs, i ≤ k ∧ (star = false → i < k) ∧ (∀ m, i ≤ m → m < k → ∃ ch, text[m]? = some ch ∧ c.has ch = true) ∧ Matches text p k j cs

/-- `*?` or `+?`. -/
def lazySpell (star : Bool) : List Byte := [if star then 0x2a#8 else 0x2b#8, 0x3f#8]

/-- `^`, or nothing. -/
def anchorSpell (anchor : Bool) : List Byte := if anchor then [0x5e#8] else []

/-! ## The compiler -/

theorem parse_lazy (star : Bool) {pat t b : List Byte} {len off n begin_ level : Nat} {re : Re} {br : Option Nat} {c : Cls} (hc : re.canRealloc = true)
    (hbuf : re.buf = b ++ c.ops) (hcap : re.buf.length + 2 ≤ re.cap) (hl : len ≤ pat.length)
    (h : (pat.take len).drop off = (if star then 0x2a#8 else 0x2b#8) :: 0x3f#8 :: t) :
    ∃ re', re'.buf = b ++ 12#8 :: c.ops ∧ re.cap ≤ re'.cap ∧ re'.canRealloc = true ∧ re'.captures = re.captures ∧
      parse pat len (n + 1) re b.length begin_ br off level = parse pat len n re' b.length begin_ br (off + 2) level := by
  obtain ⟨h1, h2, h3⟩ := at_cons h
  obtain ⟨h4, h5, h6⟩ := at_cons h3
  obtain ⟨a, r, ho, ha1, ha2, ha3⟩ := cls_ops_first (c := c)
  obtain ⟨re1, e1, g1⟩ := emitOps_ok (vs := [0]) (re := re) hc (by simp)
  have hlazy : lazyMark pat len (off + 1) = .ok true := by
    rw [lazyMark, if_pos h4, h5, except_ok_bind]
    rfl
  have hq : quantifiable re b.length = .ok true := by
    rw [quantifiable, if_neg (by rw [hbuf, ho]; simp), hbuf, ho, rd_last, except_ok_bind]
    simp; omega
  have hcq : compileQuantifier b.length 12#8 re = .ok (.ok () { re1 with buf := b ++ 12#8 :: c.ops }) := by
    have hsplit : splits b.length re = .ok false := by
      rw [splits, hbuf, ho, rd_last, except_ok_bind]
      split
      · obtain ⟨x, rfl⟩ := ha3 (by assumption)
        rw [rd_last1, except_ok_bind]
        rfl
      · rfl
    rw [compileQuantifier, hsplit, except_ok_bind]
    simp only [Bool.false_eq_true, if_false]
    rw [e1]
    dsimp only
    have := g1.cap
    have hlen : re.buf.length = b.length + (r.length + 1) := by rw [hbuf, ho]; simp
    rw [if_neg (by omega), hbuf, List.take_left, List.drop_left]
  refine ⟨{ re1 with buf := b ++ 12#8 :: c.ops }, rfl, g1.cap, g1.can, g1.caps, ?_⟩
  have e4 : ((if star then 0x2a#8 else 0x2b#8 : Byte) = 0x2a#8 ∨ (if star then 0x2a#8 else 0x2b#8 : Byte) = 0x2b#8) := by cases star <;> simp
  have e5 : ∀ d : Byte, d ≠ 0x2a#8 → d ≠ 0x2b#8 → ¬ ((if star then 0x2a#8 else 0x2b#8 : Byte) = d) := by
    intro d k1 k2; cases star <;> simp [Ne.symm k1, Ne.symm k2]
  rw [parse, if_pos h1, h2, except_ok_bind, if_neg (e5 _ (by decide) (by decide)), if_neg (e5 _ (by decide) (by decide)), if_neg (e5 _ (by decide) (by decide)),
    if_neg (e5 _ (by decide) (by decide)), if_neg (e5 _ (by decide) (by decide)), if_neg (e5 _ (by decide) (by decide)), if_neg (e5 _ (by decide) (by decide)),
    if_pos e4, hq, except_ok_bind]
  simp only [if_true]
  rw [hlazy, except_ok_bind]
  simp only [if_true]
  rw [hcq, except_ok_bind]

/-- The operation of `^`, if there is one. -/
def anchorOps (anchor : Bool) : List Byte := if anchor then [2#8] else []

/-- The operations of `c+?p` and `c*?p`. -/
theorem compile_lazy (star anchor : Bool) {c : Cls} {p : Pat} {pat : List Byte} {plen : Nat} (hc : c.Ok) (hok : p.Ok false) (hplus : p.hasPlus = false)
    (hg : p.groups ≤ 256) (hpl : plen ≤ pat.length) (hp : pat.take plen = anchorSpell anchor ++ c.spell ++ lazySpell star ++ p.spell) :
    ∃ re, compile pat plen = .ok (.none, re, false) ∧ re.buf = anchorOps anchor ++ [12#8] ++ c.ops ++ opsOf (p.flat 0) ∧ re.captures = p.groups := by
  have hlen := congrArg List.length hp
  simp only [List.length_take, List.length_append, lazySpell, List.length_cons, List.length_nil] at hlen
  have hcl := cls_length hc
  have hcs : 1 ≤ c.spell.length := by cases c <;> simp [Cls.spell]
  have hend : Ends 0 [] := Or.inl rfl
  have key : ∀ (re0 : Re) (n off : Nat), re0.canRealloc = true → re0.captures = 0 → re0.buf.length ≤ 1 → plen + 128 ≤ re0.cap → plen - off < n + 1 → 
      (pat.take plen).drop off = c.spell ++ (if star then 0x2a#8 else 0x2b#8) :: 0x3f#8 :: p.spell →
      off + c.spell.length + 2 + p.spell.length = plen → ∀ last, ∃ re, parse pat plen (n + 1) re0 last 0 none off 0 = .ok (.ok plen re) ∧
        re.buf = re0.buf ++ [12#8] ++ c.ops ++ opsOf (p.flat 0) ∧ re.captures = p.groups := by
    intro re0 n off r0 k0 b0 c0 hn hat hoff last
    obtain ⟨re1, g1, e1⟩ := parse_cls (n := n) (last := last) (begin_ := 0) (level := 0) (b := none) (off := off)
      (re := re0) (t := (if star then 0x2a#8 else 0x2b#8) :: 0x3f#8 :: p.spell) hpl r0 hc
      (fun x e => by intro d hd; simp at hd; subst hd; cases star <;> decide) hat
    have c1 := g1.cap
    have hat2 : (pat.take plen).drop (off + c.spell.length) = (if star then 0x2a#8 else 0x2b#8) :: 0x3f#8 :: p.spell := at_append hat
    obtain ⟨m, rfl⟩ : ∃ m, n = m + 1 := ⟨n - 1, by omega⟩
    obtain ⟨re2, b2, c2, r2, k2, e2⟩ := parse_lazy star (n := m) (begin_ := 0) (level := 0) (br := none) (c := c) (b := re0.buf) g1.can g1.buf
      (by rw [g1.buf]; simp; omega) hpl hat2
    obtain ⟨-, -, h3⟩ := at_cons hat2
    obtain ⟨-, -, h4⟩ := at_cons h3
    have hk : re2.captures = 0 := by rw [k2, g1.caps, k0]
    obtain ⟨re3, e3, g3⟩ := parse_ok hpl p false m re2 re0.buf.length 0 (off + c.spell.length + 2) 0 [] hok hend (by simpa using h4) (by omega) r2 (by omega)
      (by simp [hplus])
    refine ⟨re3, ?_, ?_, ?_⟩
    · refine e1.trans (e2.trans (e3.trans ?_))
      simp only [past, if_true]
      congr 2
    · rw [g3.buf, b2, hk]; simp
    · rw [g3.caps, hk]; simp
  have hfin : ∀ re, parse pat plen (plen + 1) { buf := [], cap := plen + 128, canRealloc := true, captures := 0 } 0 0 none 0 0 = .ok (.ok plen re) →
      compile pat plen = .ok (.none, re, false) := by
    intro re h
    rw [compile, h]
    simp [except_ok_bind]
  cases anchor with
  | false =>
    simp only [anchorSpell, Bool.false_eq_true, if_false, List.length_nil] at hlen hp
    obtain ⟨re, h1, h2, h3⟩ := key { buf := [], cap := plen + 128, canRealloc := true, captures := 0 } plen 0 rfl rfl (by simp) (by simp) (by omega)
      (by rw [List.drop_zero, hp]; simp [lazySpell]) (by omega) 0
    exact ⟨re, hfin re h1, h2, h3⟩
  | true =>
    simp only [anchorSpell, if_true, List.length_cons, List.length_nil] at hlen hp
    have hat : (pat.take plen).drop 0 = 0x5e#8 :: (c.spell ++ (if star then 0x2a#8 else 0x2b#8) :: 0x3f#8 :: p.spell) := by
      rw [List.drop_zero, hp]; simp [lazySpell]
    obtain ⟨h1, h2, h3⟩ := at_cons hat
    obtain ⟨re0, e0, g0⟩ := emitOps_ok (vs := [2]) (re := { buf := [], cap := plen + 128, canRealloc := true, captures := 0 }) rfl (by simp)
    have hb0 : re0.buf = [2#8] := by simpa using g0.buf
    obtain ⟨m, hm⟩ : ∃ m, plen = m + 1 := ⟨plen - 1, by omega⟩
    obtain ⟨re, k1, k2, k3⟩ := key re0 m 1 g0.can g0.caps (by rw [hb0]; simp) g0.cap (by omega) h3 (by omega) 0
    refine ⟨re, hfin re ?_, by rw [k2, hb0]; rfl, k3⟩
    rw [parse, if_pos h1, h2, except_ok_bind, if_pos rfl, e0]
    dsimp only
    rw [← k1]
    congr 1

/-! ## The matcher -/

/-- Where a character of `c` stands, `c+?` takes that one and what comes behind it decides. -/
theorem lazy_present {c : Cls} {pre block : List Byte} {is : List Instr} {len i n : Nat} {d : Byte} (hc : c.Ok) (hl : len < block.length) (hi : i < len)
    (hd : block[i]? = some d) (hn : c.has d = true) {caps caps1 caps2 : List Cap} {o o2 r : Int} (hr : r ≤ len)
    (h1 : exec (pre ++ [12#8] ++ c.ops ++ opsOf is) block len (n + 1) (pre ++ [12#8] ++ c.ops).length ((i + 1 : Nat) : Int) caps = .ok (⟨o, r⟩, caps1))
    (h2 : exec (pre ++ [12#8] ++ c.ops ++ opsOf is) block len (n + 1) (pre ++ [12#8] ++ c.ops).length ((i + 1 : Nat) : Int) caps1 = .ok (⟨o2, r⟩, caps2))
    (h0 : is = [] → caps2 = caps ∧ o = (pre ++ [12#8] ++ c.ops).length ∧ r = ((i + 1 : Nat) : Int)) :
    single (pre ++ [12#8] ++ c.ops ++ opsOf is) block len (n + 3) pre.length i caps = .ok (⟨o, r⟩, caps2) := by
  have hrun : clsRun block len c i = i + 1 := by rw [clsRun_text hi hd, if_pos hn]
  have hstep : ∀ n caps, single (pre ++ [12#8] ++ c.ops ++ opsOf is) block len (n + 1) (pre.length + 1) i caps =
      .ok (⟨(pre ++ [12#8] ++ c.ops).length, ((i + 1 : Nat) : Int)⟩, caps) := by
    intro n caps
    obtain ⟨o', k1, k2⟩ := single_cls_op hc (pre ++ [12#8]) (opsOf is) block (by omega) (Nat.le_of_lt hi) (fun _ => hl) n caps
    rw [hrun] at k1
    subst k2
    rw [show ((pre ++ [12#8]).length : Int) = pre.length + 1 by simp] at k1
    rw [k1]
    simp
    omega
  have e : pre ++ [12#8] ++ c.ops ++ opsOf is = pre ++ 12#8 :: (c.ops ++ opsOf is) := by simp
  have hrd : rdI (pre ++ [12#8] ++ c.ops ++ opsOf is) pre.length = .ok 12#8 := by rw [e]; exact rdI_append _ _ _ rfl
  rw [single, hrd, except_ok_bind]
  have hsim : simple (pre ++ [12#8] ++ c.ops ++ opsOf is) block len 12#8 (pre.length + 1) i caps = .ok none := rfl
  rw [hsim, except_ok_bind]
  simp only [BitVec.reduceEq, if_false, or_true, if_true]
  rw [hstep (n + 1) caps, except_ok_bind]
  dsimp only
  rw [if_neg (by omega), consume, hstep n [], except_ok_bind]
  dsimp only
  rw [if_neg (by omega)]
  by_cases his : is = []
  · obtain ⟨g1, g2, g3⟩ := h0 his
    subst g1 g2 g3
    rw [if_pos (by subst his; simp [opsOf])]
  · have hpos : 0 < (opsOf is).length := by
      cases is with
      | nil => exact absurd rfl his
      | cons a is =>
        rw [opsOf_cons]
        have := List.length_pos_iff.2 (ops_ne_nil a)
        simp; omega
    rw [if_neg (by simp; omega), h1, except_ok_bind]
    dsimp only
    rw [if_pos hr, h2, except_ok_bind]
    rfl

/-- Where none stands, the matcher goes on at operation -1. -/
theorem lazy_absent {c : Cls} {pre rest block : List Byte} {len i : Nat} {d : Byte} (hc : c.Ok) (hl : len < block.length) (hi : i < len)
    (hd : block[i]? = some d) (hn : c.has d = false) (n : Nat) (caps : List Cap) :
    exec (pre ++ [12#8] ++ c.ops ++ rest) block len (n + 4) pre.length i caps = .error .oob := by
  have hrun : clsRun block len c i = -1 := by rw [clsRun_text hi hd, if_neg (by simp [hn])]
  have hstep : ∀ n caps, ∃ o, single (pre ++ [12#8] ++ c.ops ++ rest) block len (n + 1) (pre.length + 1) i caps = .ok (⟨o, -1⟩, caps) := by
    intro n caps
    obtain ⟨o', k1, k2⟩ := single_cls_op hc (pre ++ [12#8]) rest block (by omega) (Nat.le_of_lt hi) (fun _ => hl) n caps
    rw [hrun] at k1
    rw [show ((pre ++ [12#8]).length : Int) = pre.length + 1 by simp] at k1
    exact ⟨o', k1⟩
  have e : pre ++ [12#8] ++ c.ops ++ rest = pre ++ 12#8 :: (c.ops ++ rest) := by simp
  have hrd : rdI (pre ++ [12#8] ++ c.ops ++ rest) pre.length = .ok 12#8 := by rw [e]; exact rdI_append _ _ _ rfl
  have hsim : simple (pre ++ [12#8] ++ c.ops ++ rest) block len 12#8 (pre.length + 1) i caps = .ok none := rfl
  have hsingle : single (pre ++ [12#8] ++ c.ops ++ rest) block len (n + 3) pre.length i caps = .ok (⟨-1, i⟩, caps) := by
    obtain ⟨o1, k1⟩ := hstep (n + 1) caps
    obtain ⟨o2, k2⟩ := hstep n []
    rw [single, hrd, except_ok_bind, hsim, except_ok_bind]
    simp only [BitVec.reduceEq, if_false, or_true, if_true]
    rw [k1, except_ok_bind]
    dsimp only
    rw [if_neg (by omega), consume, k2, except_ok_bind]
    dsimp only
    rw [if_pos (Or.inr rfl)]
  rw [exec, if_pos (by simp; omega), hsingle, except_ok_bind]
  dsimp only
  rw [if_neg (by omega), exec, if_pos (by simp; omega), single]
  rfl

/-- Matching begins with the attempt at the start of the text; with `^` there is no other. -/
theorem reMatch_first (anchor : Bool) {c : Cls} {rest block : List Byte} {re : Re} {len n : Nat} {caps : List Cap} (h0 : 0 < len)
    (hb : re.buf = anchorOps anchor ++ [12#8] ++ c.ops ++ rest) :
    (∀ e, exec re.buf block len n 0 0 caps = .error e → reMatch re block len n caps = .error e) ∧
    (∀ o r caps', exec re.buf block len n 0 0 caps = .ok (⟨o, r⟩, caps') → 0 ≤ r → r ≤ len → reMatch re block len n caps = .ok (true, caps', some r)) ∧
    (anchor = true → ∀ o caps', exec re.buf block len n 0 0 caps = .ok (⟨o, -1⟩, caps') → reMatch re block len n caps = .ok (false, caps', none)) := by
  have hpos : re.buf.length > 0 := by rw [hb]; simp; omega
  obtain ⟨k, rfl⟩ : ∃ k, len = k + 1 := ⟨len - 1, by omega⟩
  cases anchor with
  | false =>
    have hrd : rd re.buf 0 = .ok 12#8 := by rw [hb]; rfl
    have e : reMatch re block (k + 1) n caps = matchLoop re block (k + 1) n (k + 1) 0 caps := by
      rw [reMatch, if_pos hpos, hrd, except_ok_bind, if_neg (by decide)]
    rw [e]
    refine ⟨fun x h => ?_, fun o r caps' h h1 h2 => ?_, fun h => by simp at h⟩
    · have h : exec re.buf block ((k + 1 : Nat) : Int) n 0 ((0 : Nat) : Int) caps = .error x := h
      rw [matchLoop, h]
      rfl
    · have h : exec re.buf block ((k + 1 : Nat) : Int) n 0 ((0 : Nat) : Int) caps = .ok (⟨o, r⟩, caps') := h
      rw [matchLoop, h, except_ok_bind]
      dsimp only
      rw [if_pos ⟨h1, h2⟩]
  | true =>
    have hrd : rd re.buf 0 = .ok 2#8 := by rw [hb]; rfl
    have e : reMatch re block (k + 1) n caps = (do
        let (c, caps) ← exec re.buf block ((k + 1 : Nat) : Int) n 0 0 caps
        if c.off ≥ 0 ∧ c.off ≤ ((k + 1 : Nat) : Int) then .ok (true, caps, some c.off) else .ok (false, caps, none)) := by
      rw [reMatch, if_pos hpos, hrd, except_ok_bind, if_pos rfl]
    rw [e]
    refine ⟨fun x h => ?_, fun o r caps' h h1 h2 => ?_, fun _ o caps' h => ?_⟩
    · rw [h]; rfl
    · rw [h, except_ok_bind]
      dsimp only
      rw [if_pos ⟨h1, h2⟩]
    · rw [h, except_ok_bind]
      dsimp only
      rw [if_neg (by omega)]

/-- An attempt at the start of the text, for all large enough fuel. -/
theorem lazy_start (anchor : Bool) {c : Cls} {block : List Byte} {is : List Instr} {len : Nat} {d : Byte} (hc : c.Ok) (hl : len < block.length) (h0 : 0 < len)
    (hd : block[0]? = some d) (hn : c.has d = true) (hok : ∀ ins ∈ is, ins.Ok) {caps caps1 caps2 : List Cap} {r : Int} (hr : r ≤ len)
    (h1 : run block len is 1 caps = .ok (r, caps1)) (h2 : run block len is 1 caps1 = .ok (r, caps2)) :
    ∃ N, ∀ n, N ≤ n → ∃ o, exec (anchorOps anchor ++ [12#8] ++ c.ops ++ opsOf is) block len n 0 0 caps = .ok (⟨o, r⟩, caps2) := by
  obtain ⟨N1, k1⟩ := exec_run (by omega : len ≤ block.length) is (anchorOps anchor ++ [12#8] ++ c.ops) 1 caps r caps1 (by omega) hok (fun _ _ _ => hl) h1
  obtain ⟨N2, k2⟩ := exec_run (by omega : len ≤ block.length) is (anchorOps anchor ++ [12#8] ++ c.ops) 1 caps1 r caps2 (by omega) hok (fun _ _ _ => hl) h2
  have hge := run_ge block len is 1 caps r caps1 h1
  refine ⟨N1 + N2 + 6, fun n hn' => ?_⟩
  have key : ∀ m, N1 + N2 + 1 ≤ m → ∃ o, exec (anchorOps anchor ++ ([12#8] ++ c.ops ++ opsOf is)) block len (m + 4) (anchorOps anchor).length 0 caps = .ok (⟨o, r⟩, caps2) := by
    intro m hm
    obtain ⟨o1, g1, g1'⟩ := k1 (m + 1) (by omega)
    obtain ⟨o2, g2, -⟩ := k2 (m + 1) (by omega)
    have hs := lazy_present (pre := anchorOps anchor) (i := 0) hc hl h0 hd hn hr g1 g2 (by
      intro his
      subst his
      simp only [run, Except.ok.injEq, Prod.mk.injEq] at h1 h2
      obtain ⟨e1, e2⟩ := h1
      obtain ⟨-, e3⟩ := h2
      refine ⟨by rw [← e3, ← e2], ?_, by omega⟩
      have := g1' (by omega) hr
      simpa [opsOf] using this)
    rw [show anchorOps anchor ++ ([12#8] ++ c.ops ++ opsOf is) = anchorOps anchor ++ [12#8] ++ c.ops ++ opsOf is by simp]
    have hs : single (anchorOps anchor ++ [12#8] ++ c.ops ++ opsOf is) block len (m + 3) (anchorOps anchor).length 0 caps = .ok (⟨o1, r⟩, caps2) := hs
    rw [exec, if_pos (by simp; omega), hs, except_ok_bind]
    dsimp only
    by_cases hr' : r = -1
    · rw [if_pos (Or.inr hr')]; exact ⟨_, rfl⟩
    · rw [if_neg (by omega), g1' (by omega) hr, exec, if_neg (by omega)]; exact ⟨_, rfl⟩
  obtain ⟨m, rfl⟩ : ∃ m, n = m + 6 := ⟨n - 6, by omega⟩
  have e : anchorOps anchor ++ [12#8] ++ c.ops ++ opsOf is = anchorOps anchor ++ ([12#8] ++ c.ops ++ opsOf is) := by simp
  rw [e]
  cases anchor with
  | false =>
    exact key (m + 2) (by omega)
  | true =>
    obtain ⟨o, ho⟩ := key (m + 1) (by omega)
    refine ⟨o, ?_⟩
    rw [exec, if_pos (by simp [anchorOps]; omega), single]
    have hrd : rdI (anchorOps true ++ ([12#8] ++ c.ops ++ opsOf is)) 0 = .ok 2#8 := rfl
    have hsim : simple (anchorOps true ++ ([12#8] ++ c.ops ++ opsOf is)) block len 2#8 (0 + 1) 0 caps = .ok (some (⟨1, 0⟩, caps)) := rfl
    rw [hrd, except_ok_bind, hsim, except_ok_bind]
    dsimp only
    rw [except_ok_bind]
    dsimp only
    rw [if_neg (by omega)]
    exact ho

/-! ## Property theorems -/

/-- C170, the part that holds.  `c+?p`, with or without `^` in front and for `p` without quantifiers and alternatives, compiles, and so does `c*?p`.  In a
text that begins with a character of `c` and goes on with a match of `p`, that match is found, and the captures hold what the groups of `p` matched.
Missing, and false by the theorems below: repetitions of any other length. -/
theorem C170_lazy_partial (star anchor : Bool) {c : Cls} {p : Pat} {pat block : List Byte} {plen len j : Nat} {d : Byte} {cs : List (Nat × Nat)} (hc : c.Ok)
    (hok : p.Ok false) (hplus : p.hasPlus = false) (hg : p.groups ≤ 256) (hpl : plen ≤ pat.length)
    (hp : pat.take plen = anchorSpell anchor ++ c.spell ++ lazySpell star ++ p.spell)
    (hl : len < block.length) (h0 : 0 < len) (hd : block[0]? = some d) (hn : c.has d = true) (hm : Matches (block.take len) p 1 j cs) :
    ∃ re, compile pat plen = .ok (.none, re, false) ∧ re.captures = p.groups ∧ ∀ caps, ∃ caps', caps'.length = caps.length ∧ Holds cs 0 caps' ∧
      ∃ N, ∀ n, N ≤ n → reMatch re block len n caps = .ok (true, caps', some j) := by
  obtain ⟨re, h1, h2, h3⟩ := compile_lazy star anchor hc hok hplus hg hpl hp
  refine ⟨re, h1, h3, fun caps => ?_⟩
  have hins := flat_ok p false 0 hok (by omega)
  have hcalm : Calm block len (p.flat 0) := by
    have := calm_append (block := block) (len := len) (js := []) (no_plus 0 hplus) trivial
    simpa using this
  have hj := matches_le hm (by simp; omega)
  simp only [List.length_take] at hj
  have hrun : ∀ caps, ∃ caps', run block len (p.flat 0) 1 caps = .ok ((j : Int), caps') ∧ caps'.length = caps.length ∧ Holds cs 0 caps' := by
    intro caps
    obtain ⟨caps1, k1, k2, k3, -⟩ := matches_run (by omega : len ≤ block.length) rfl hm (by omega) 0 [] j (by simpa using hins) (by simpa using hcalm)
      (by simp [Outside]) (fun c => ⟨c, rfl⟩) caps
    rw [List.append_nil, run] at k1
    exact ⟨caps1, k1, k2, k3⟩
  obtain ⟨caps1, a1, a2, a3⟩ := hrun caps
  obtain ⟨caps2, b1, b2, b3⟩ := hrun caps1
  obtain ⟨N, hN⟩ := lazy_start anchor hc hl h0 hd hn hins (by omega) a1 b1
  refine ⟨caps2, by omega, b3, N, fun n hn' => ?_⟩
  obtain ⟨o, ho⟩ := hN n hn'
  rw [← h2] at ho
  exact (reMatch_first anchor h0 h2).2.1 o j caps2 ho (by omega) (by omega)

/-- C170 is false in full.  `^c+?s` and `^c*?s`, for ordinary characters `s`, take exactly one character of `c`: in a text that begins with a character of
`c`, they are found exactly if `s` comes right behind it. -/
theorem C170_lazy_takes_one (star : Bool) {c : Cls} {s pat block : List Byte} {plen len : Nat} {d : Byte} (hc : c.Ok) (hs : Ordinary s) (hs0 : s ≠ [])
    (h127 : s.length ≤ 127) (hpl : plen ≤ pat.length) (hp : pat.take plen = 0x5e#8 :: c.spell ++ lazySpell star ++ s)
    (hl : len < block.length) (h0 : 0 < len) (hd : block[0]? = some d) (hn : c.has d = true) :
    ∃ re, compile pat plen = .ok (.none, re, false) ∧ ∀ caps, ∃ N, ∀ n, N ≤ n →
      reMatch re block len n caps = if s <+: (block.take len).drop 1 then .ok (true, caps, some (1 + s.length)) else .ok (false, caps, none) := by
  have hok : (Pat.lit s .nil).Ok false := ⟨rfl, hs0, hs, by simpa [Pat.extra] using h127, trivial⟩
  obtain ⟨re, h1, h2, -⟩ := compile_lazy (p := .lit s .nil) star true hc hok rfl (by simp [Pat.groups]) hpl (by simpa [Pat.spell, anchorSpell] using hp)
  refine ⟨re, h1, fun caps => ?_⟩
  have hins := flat_ok (.lit s .nil) false 0 hok (by simp [Pat.groups])
  by_cases hpre : s <+: (block.take len).drop 1
  · have hrun : run block len ((Pat.lit s .nil).flat 0) 1 caps = .ok (((1 + s.length : Nat) : Int), caps) := by
      rw [Pat.flat, run, if_pos hpre, Pat.flat, run]
    have hsl := hpre.length_le
    simp at hsl
    obtain ⟨N, hN⟩ := lazy_start true hc hl h0 hd hn hins (by omega) hrun hrun
    refine ⟨N, fun n hn' => ?_⟩
    obtain ⟨o, ho⟩ := hN n hn'
    rw [← h2] at ho
    rw [if_pos hpre, (reMatch_first true h0 h2).2.1 o _ caps ho (by omega) (by omega)]
    simp
  · have hrun : run block len ((Pat.lit s .nil).flat 0) 1 caps = .ok (-1, caps) := by
      rw [Pat.flat, run, if_neg hpre]
    obtain ⟨N, hN⟩ := lazy_start true hc hl h0 hd hn hins (by omega) hrun hrun
    refine ⟨N, fun n hn' => ?_⟩
    obtain ⟨o, ho⟩ := hN n hn'
    rw [← h2] at ho
    rw [if_neg hpre, (reMatch_first true h0 h2).2.2 rfl o caps ho]

/-- C170 is false in full.  Where the text begins with something else, `c+?p` and `c*?p` make the matcher read in front of its buffer, although the pattern
may match further on; `c*?p` may even match there. -/
theorem C170_lazy_nothing (star anchor : Bool) {c : Cls} {p : Pat} {pat block : List Byte} {plen len : Nat} {d : Byte} (hc : c.Ok)
    (hok : p.Ok false) (hplus : p.hasPlus = false) (hg : p.groups ≤ 256) (hpl : plen ≤ pat.length)
    (hp : pat.take plen = anchorSpell anchor ++ c.spell ++ lazySpell star ++ p.spell)
    (hl : len < block.length) (h0 : 0 < len) (hd : block[0]? = some d) (hn : c.has d = false) :
    ∃ re, compile pat plen = .ok (.none, re, false) ∧ ∀ n caps, 5 ≤ n → reMatch re block len n caps = .error .oob := by
  obtain ⟨re, h1, h2, -⟩ := compile_lazy star anchor hc hok hplus hg hpl hp
  refine ⟨re, h1, fun n caps hn5 => ?_⟩
  refine (reMatch_first anchor h0 h2).1 _ ?_
  rw [h2]
  obtain ⟨m, rfl⟩ : ∃ m, n = m + 5 := ⟨n - 5, by omega⟩
  cases anchor with
  | false => exact lazy_absent (pre := []) (i := 0) hc hl h0 hd hn (m + 1) caps
  | true =>
    have key := lazy_absent (pre := [2#8]) (i := 0) (rest := opsOf (p.flat 0)) hc hl h0 hd hn m caps
    rw [exec, if_pos (by simp [anchorOps]; omega), single]
    have hrd : rdI (anchorOps true ++ [12#8] ++ c.ops ++ opsOf (p.flat 0)) 0 = .ok 2#8 := rfl
    have hsim : simple (anchorOps true ++ [12#8] ++ c.ops ++ opsOf (p.flat 0)) block len 2#8 (0 + 1) 0 caps = .ok (some (⟨1, 0⟩, caps)) := rfl
    rw [hrd, except_ok_bind, hsim, except_ok_bind]
    dsimp only
    rw [except_ok_bind]
    dsimp only
    rw [if_neg (by omega)]
    exact key

/-- C170: `c*?p` is the same as `c+?p`, whatever the text. -/
theorem C170_star_is_plus (anchor : Bool) {c : Cls} {p : Pat} {pat pat' : List Byte} {plen : Nat} (hc : c.Ok) (hok : p.Ok false) (hplus : p.hasPlus = false)
    (hg : p.groups ≤ 256) (hpl : plen ≤ pat.length) (hpl' : plen ≤ pat'.length) (hp : pat.take plen = anchorSpell anchor ++ c.spell ++ lazySpell true ++ p.spell)
    (hp' : pat'.take plen = anchorSpell anchor ++ c.spell ++ lazySpell false ++ p.spell) :
    ∃ re re', compile pat plen = .ok (.none, re, false) ∧ compile pat' plen = .ok (.none, re', false) ∧
      ∀ block len n caps, reMatch re block len n caps = reMatch re' block len n caps := by
  obtain ⟨re, h1, h2, -⟩ := compile_lazy true anchor hc hok hplus hg hpl hp
  obtain ⟨re', h1', h2', -⟩ := compile_lazy false anchor hc hok hplus hg hpl' hp'
  have e : re.buf = re'.buf := h2.trans h2'.symm
  refine ⟨re, re', h1, h1', fun block len n caps => ?_⟩
  have hloop : ∀ k i caps, matchLoop re block len n k i caps = matchLoop re' block len n k i caps := by
    intro k
    induction k with
    | zero => intro i caps; rfl
    | succ k ih =>
      intro i caps
      rw [matchLoop, matchLoop, e]
      simp only [ih]
  rw [reMatch, reMatch, e, hloop]

/-- C170: the usual meaning of `c*?p` has a match wherever `p` has one, and `c+?p` wherever it has one behind some characters of `c`. -/
theorem C170_lazy_usual {star : Bool} {text : List Byte} {c : Cls} {p : Pat} {i k j : Nat} {cs : List (Nat × Nat)} (h : Matches text p k j cs) (hik : i ≤ k)
    (hs : star = true ∨ i < k) (hall : ∀ m, i ≤ m → m < k → ∃ ch, text[m]? = some ch ∧ c.has ch = true) : MatchesLazy star text c p i j :=
  ⟨k, cs, hik, by rintro rfl; simpa using hs, hall, h⟩

/-! ## Instances -/

/-- `x+?(y)` in the text `xy`. -/
example (caps : List Cap) : ∃ re, compile [0x78#8, 0x2b#8, 0x3f#8, 0x28#8, 0x79#8, 0x29#8] 6 = .ok (.none, re, false) ∧
    ∃ caps', Holds [(1, 1)] 0 caps' ∧ ∃ N, ∀ n, N ≤ n → reMatch re [0x78#8, 0x79#8, 0#8] 2 n caps = .ok (true, caps', some 2) := by
  obtain ⟨re, h1, -, h2⟩ := C170_lazy_partial false false (c := .chr 0x78#8) (p := .group (.lit [0x79#8] .nil) .nil)
    (pat := [0x78#8, 0x2b#8, 0x3f#8, 0x28#8, 0x79#8, 0x29#8]) (plen := 6) (block := [0x78#8, 0x79#8, 0#8]) (len := 2) (j := 2) (d := 0x78#8) (cs := [(1, 1)])
    (by simp [Cls.Ok, metaChars]) (by simp [Pat.Ok, Ordinary, metaChars, Pat.extra]) rfl (by simp [Pat.groups]) (by simp) rfl (by simp) (by omega) rfl rfl
    (.group (k := 2) (cs := []) (.lit (by decide) .nil) .nil)
  obtain ⟨caps', -, h3, h4⟩ := h2 caps
  exact ⟨re, h1, caps', h3, h4⟩

/-- `^x+?y` is not found in the text `xxy`, in which it matches. -/
example (caps : List Cap) : (∃ re, compile [0x5e#8, 0x78#8, 0x2b#8, 0x3f#8, 0x79#8] 5 = .ok (.none, re, false) ∧
    ∃ N, ∀ n, N ≤ n → reMatch re [0x78#8, 0x78#8, 0x79#8, 0#8] 3 n caps = .ok (false, caps, none)) ∧
    MatchesLazy false [0x78#8, 0x78#8, 0x79#8] (.chr 0x78#8) (.lit [0x79#8] .nil) 0 3 := by
  obtain ⟨re, h1, h2⟩ := C170_lazy_takes_one false (c := .chr 0x78#8) (s := [0x79#8]) (pat := [0x5e#8, 0x78#8, 0x2b#8, 0x3f#8, 0x79#8]) (plen := 5)
    (block := [0x78#8, 0x78#8, 0x79#8, 0#8]) (len := 3) (d := 0x78#8) (by simp [Cls.Ok, metaChars]) (by simp [Ordinary, metaChars]) (by simp) (by simp) (by simp) rfl
    (by simp) (by omega) rfl rfl
  obtain ⟨N, h3⟩ := h2 caps
  refine ⟨⟨re, h1, N, fun n hn => by rw [h3 n hn]; exact if_neg (by decide)⟩, C170_lazy_usual (k := 2) (.lit (by decide) .nil) (by omega) (Or.inr (by omega)) ?_⟩
  intro m _ hm
  match m, hm with
  | 0, _ => exact ⟨_, rfl, rfl⟩
  | 1, _ => exact ⟨_, rfl, rfl⟩

/-- `x*?y` in the text `y`. -/
example (caps : List Cap) (n : Nat) (hn : 5 ≤ n) : (∃ re, compile [0x78#8, 0x2a#8, 0x3f#8, 0x79#8] 4 = .ok (.none, re, false) ∧
    reMatch re [0x79#8, 0#8] 1 n caps = .error .oob) ∧ MatchesLazy true [0x79#8] (.chr 0x78#8) (.lit [0x79#8] .nil) 0 1 := by
  obtain ⟨re, h1, h2⟩ := C170_lazy_nothing true false (c := .chr 0x78#8) (p := .lit [0x79#8] .nil) (pat := [0x78#8, 0x2a#8, 0x3f#8, 0x79#8]) (plen := 4)
    (block := [0x79#8, 0#8]) (len := 1) (d := 0x79#8) (by simp [Cls.Ok, metaChars]) (by simp [Pat.Ok, Ordinary, metaChars, Pat.extra]) rfl
    (by simp [Pat.groups]) (by simp) rfl (by simp) (by omega) rfl rfl
  exact ⟨⟨re, h1, h2 n caps hn⟩, C170_lazy_usual (k := 0) (.lit (by decide) .nil) (by omega) (Or.inl rfl) (by omega)⟩

/-- `x*?y` and `x+?y`. -/
example : ∃ re re', compile [0x78#8, 0x2a#8, 0x3f#8, 0x79#8] 4 = .ok (.none, re, false) ∧ compile [0x78#8, 0x2b#8, 0x3f#8, 0x79#8] 4 = .ok (.none, re', false) ∧
    ∀ block len n caps, reMatch re block len n caps = reMatch re' block len n caps :=
  C170_star_is_plus false (c := .chr 0x78#8) (p := .lit [0x79#8] .nil) (by simp [Cls.Ok, metaChars]) (by simp [Pat.Ok, Ordinary, metaChars, Pat.extra]) rfl
    (by simp [Pat.groups]) (by simp) (by simp) rfl rfl

end Zpl.Regex
