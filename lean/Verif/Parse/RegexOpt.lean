import Verif.Parse.Regex

/-!
# Optional characters in regular expressions (code/source/regex.c)

`c?` is compiled to the operation 13 (`ZPL_RE_OP_ZERO_OR_ONE`, regex.c:309-331 and 626-636) in front of what `c` is compiled to.  The model is that of
`Verif.Parse.Regex`.  Property C169.
-/

namespace Zpl.Regex

open Zpl.Str


/-! ## Specification -/

/-- `c?p` matches from `i` to `j` as usual: with one character of `c` in front, or without. -/
def MatchesOpt (text : List Byte) (c : Cls) (p : Pat) (i j : Nat) : Prop :=
  (∃ cs, Matches text (.one c p) i j cs) ∨ ∃ cs, Matches text p i j cs

/-! ## The compiler -/

theorem parse_opt {pat t b : List Byte} {len off n begin_ level : Nat} {re : Re} {br : Option Nat} {c : Cls} (hc : re.canRealloc = true)
    (hbuf : re.buf = b ++ c.ops) (hcap : re.buf.length + 2 ≤ re.cap) (hl : len ≤ pat.length)
    (h : (pat.take len).drop off = 0x3f#8 :: t) :
    ∃ re', re'.buf = b ++ 13#8 :: c.ops ∧ re.cap ≤ re'.cap ∧ re'.canRealloc = true ∧ re'.captures = re.captures ∧
      parse pat len (n + 1) re b.length begin_ br off level = parse pat len n re' b.length begin_ br (off + 1) level := by
  obtain ⟨h1, h2, h3⟩ := at_cons h
  obtain ⟨a, r, ho, ha1, ha2, ha3⟩ := cls_ops_first (c := c)
  obtain ⟨re1, e1, g1⟩ := emitOps_ok (vs := [0]) (re := re) hc (by simp)
  have hq : quantifiable re b.length = .ok true := by
    rw [quantifiable, if_neg (by rw [hbuf, ho]; simp), hbuf, ho, rd_last, except_ok_bind]
    simp; omega
  have hcq : compileQuantifier b.length 13#8 re = .ok (.ok () { re1 with buf := b ++ 13#8 :: c.ops }) := by
    have hsplit : splits b.length re = .ok false := by
      rw [splits, hbuf, ho, rd_last, except_ok_bind]
      split
      · obtain ⟨x, rfl⟩ := ha3 (by assumption)
        rw [rd_last1, except_ok_bind]
        rfl
      · rfl
    rw [compileQuantifier, hsplit, except_ok_bind]
    simp only [Bool.false_eq_true, if_false]
    rw [e1]
    dsimp only
    have := g1.cap
    have hlen : re.buf.length = b.length + (r.length + 1) := by rw [hbuf, ho]; simp
    rw [if_neg (by omega), hbuf, List.take_left, List.drop_left]
  refine ⟨{ re1 with buf := b ++ 13#8 :: c.ops }, rfl, g1.cap, g1.can, g1.caps, ?_⟩
  rw [parse, if_pos h1, h2, except_ok_bind, if_neg (by decide), if_neg (by decide), if_neg (by decide), if_neg (by decide), if_neg (by decide),
    if_neg (by decide), if_neg (by decide), if_neg (by decide), if_pos rfl, hq, except_ok_bind]
  simp only [if_true]
  rw [hcq, except_ok_bind]

/-- The operations of `c?p`. -/
theorem compile_opt {c : Cls} {p : Pat} {pat : List Byte} {plen : Nat} (hc : c.Ok) (hok : p.Ok false) (hplus : p.hasPlus = false) (hg : p.groups ≤ 256)
    (hpl : plen ≤ pat.length) (hp : pat.take plen = c.spell ++ 0x3f#8 :: p.spell) :
    ∃ re, compile pat plen = .ok (.none, re, false) ∧ re.buf = [13#8] ++ c.ops ++ opsOf (p.flat 0) ∧ re.captures = p.groups := by
  have hlen := congrArg List.length hp
  simp only [List.length_take, List.length_append, List.length_cons] at hlen
  have hcl := cls_length hc
  have hcs : 1 ≤ c.spell.length := by cases c <;> simp [Cls.spell]
  have hend : Ends 0 [] := Or.inl rfl
  obtain ⟨re1, g1, e1⟩ := parse_cls (n := plen) (last := 0) (begin_ := 0) (level := 0) (b := none) (off := 0)
    (re := { buf := [], cap := plen + 128, canRealloc := true, captures := 0 }) (t := 0x3f#8 :: p.spell) hpl rfl hc
    (fun x e => by intro d hd; simp at hd; subst hd; decide) (by simpa using hp)
  have b1 : re1.buf = c.ops := by simpa using g1.buf
  have c1 : plen + 128 ≤ re1.cap := g1.cap
  have hat : (pat.take plen).drop (0 + c.spell.length) = 0x3f#8 :: p.spell := at_append (by simpa using hp)
  obtain ⟨m, hm⟩ : ∃ m, plen = m + 1 := ⟨plen - 1, by omega⟩
  obtain ⟨re2, b2, c2, r2, k2, e2⟩ := parse_opt (n := m) (begin_ := 0) (level := 0) (br := none) (c := c) (b := []) g1.can (by rw [b1]; rfl)
    (by rw [b1]; omega) hpl hat
  obtain ⟨-, -, h3⟩ := at_cons hat
  have hk : re2.captures = 0 := by rw [k2, g1.caps]
  obtain ⟨re3, e3, g3⟩ := parse_ok hpl p false m re2 0 0 (0 + c.spell.length + 1) 0 [] hok hend (by simpa using h3) (by omega) r2 (by omega)
    (by simp [hplus])
  refine ⟨re3, ?_, ?_, ?_⟩
  · have e4 : parse pat plen (plen + 1) { buf := [], cap := plen + 128, canRealloc := true, captures := 0 } 0 0 none 0 0 = .ok (.ok plen re3) := by
      rw [e1]
      have : parse pat plen plen re1 0 0 none (0 + c.spell.length) 0 = parse pat plen (m + 1) re1 0 0 none (0 + c.spell.length) 0 := by rw [← hm]
      refine this.trans (e2.trans (e3.trans ?_))
      simp only [past, if_true]
      congr 2
      omega
    rw [compile, e4]
    simp [except_ok_bind]
  · rw [g3.buf, b2, hk]; simp
  · rw [g3.caps, hk]; simp

/-! ## The matcher -/

/-- With a character of `c` in front, everything depends on what comes behind it. -/
theorem opt_present {c : Cls} {rest block : List Byte} {len i n : Nat} {d : Byte} (hc : c.Ok) (hl : len < block.length) (hi : i < len)
    (hd : block[i]? = some d) (hn : c.has d = true) {caps caps' : List Cap} {o r : Int} (hr : r ≤ len)
    (h : exec ([13#8] ++ c.ops ++ rest) block len (n + 1) (1 + c.ops.length) ((i + 1 : Nat) : Int) caps = .ok (⟨o, r⟩, caps')) :
    single ([13#8] ++ c.ops ++ rest) block len (n + 2) 0 i caps = .ok (⟨o, r⟩, caps') := by
  have hrun : clsRun block len c i = i + 1 := by rw [clsRun_text hi hd, if_pos hn]
  obtain ⟨o', h1, h2⟩ := single_cls_op hc [13#8] rest block (by omega) (Nat.le_of_lt hi) (fun _ => hl) n caps
  rw [hrun] at h1
  subst h2
  have h1 : single ([13#8] ++ c.ops ++ rest) block len (n + 1) (0 + 1) i caps = .ok (⟨1 + c.ops.length, i + 1⟩, caps) := h1
  rw [single]
  have h3 : rdI ([13#8] ++ c.ops ++ rest) 0 = .ok 13#8 := rfl
  rw [h3, except_ok_bind, show simple ([13#8] ++ c.ops ++ rest) block len 13#8 (0 + 1) i caps = .ok none from rfl, except_ok_bind]
  simp only [BitVec.reduceEq, if_false, or_self, if_true]
  rw [h1, except_ok_bind]
  dsimp only
  have h : exec ([13#8] ++ c.ops ++ rest) block len (n + 1) (1 + c.ops.length) ((i : Int) + 1) caps = .ok (⟨o, r⟩, caps') := h
  rw [if_pos (by omega), h, except_ok_bind]
  dsimp only
  rw [if_pos hr]

/-- Without a character of `c`, the rest of the pattern is tried in front of the text. -/
theorem opt_absent {c : Cls} {rest block : List Byte} {len i n : Nat} {d : Byte} (hc : c.Ok) (hl : len < block.length) (hi : i < len)
    (hd : block[i]? = some d) (hn : c.has d = false) {caps : List Cap} {x : Except Fault (Ctx × List Cap)}
    (h : exec ([13#8] ++ c.ops ++ rest) block len (n + 1) (1 + c.ops.length) (-1) caps = x) (hx : ∀ o r caps', x = .ok (⟨o, r⟩, caps') → r ≤ len) :
    single ([13#8] ++ c.ops ++ rest) block len (n + 2) 0 i caps = x := by
  have hrun : clsRun block len c i = -1 := by rw [clsRun_text hi hd, if_neg (by simp [hn])]
  obtain ⟨o', h1, h2⟩ := single_cls_op hc [13#8] rest block (by omega) (Nat.le_of_lt hi) (fun _ => hl) n caps
  rw [hrun] at h1
  subst h2
  have h1 : single ([13#8] ++ c.ops ++ rest) block len (n + 1) (0 + 1) i caps = .ok (⟨1 + c.ops.length, -1⟩, caps) := h1
  rw [single]
  have h3 : rdI ([13#8] ++ c.ops ++ rest) 0 = .ok 13#8 := rfl
  rw [h3, except_ok_bind, show simple ([13#8] ++ c.ops ++ rest) block len 13#8 (0 + 1) i caps = .ok none from rfl, except_ok_bind]
  simp only [BitVec.reduceEq, if_false, or_self, if_true]
  rw [h1, except_ok_bind]
  dsimp only
  rw [if_pos (by omega), h]
  cases x with
  | error e => rfl
  | ok y =>
    obtain ⟨⟨o, r⟩, caps'⟩ := y
    rw [except_ok_bind]
    dsimp only
    rw [if_pos (hx o r caps' rfl)]

/-- The first operation is `c?`, so every place is tried. -/
theorem reMatch_opt {c : Cls} {rest block : List Byte} {re : Re} {len n : Nat} {caps : List Cap} (hb : re.buf = [13#8] ++ c.ops ++ rest) :
    reMatch re block len n caps = matchLoop re block len n len 0 caps := by
  have hrd : rd re.buf 0 = .ok 13#8 := by rw [hb]; rfl
  rw [reMatch, if_pos (by rw [hb]; simp), hrd, except_ok_bind, if_neg (by decide)]

/-- An attempt at a place. -/
theorem exec_opt {c : Cls} {rest block : List Byte} {len i n : Nat} {caps caps' : List Cap} {o r : Int}
    (h : single ([13#8] ++ c.ops ++ rest) block len n 0 i caps = .ok (⟨o, r⟩, caps')) (hr : r = -1 ∨ o = ([13#8] ++ c.ops ++ rest).length) (hn : 0 < n) :
    ∃ o', exec ([13#8] ++ c.ops ++ rest) block len (n + 1) 0 i caps = .ok (⟨o', r⟩, caps') := by
  rw [exec, if_pos (by simp; omega), h, except_ok_bind]
  dsimp only
  by_cases hr' : r > len ∨ r = -1
  · rw [if_pos hr']; exact ⟨_, rfl⟩
  · rw [if_neg hr']
    obtain ⟨m, rfl⟩ : ∃ m, n = m + 1 := ⟨n - 1, by omega⟩
    rcases hr with rfl | rfl
    · omega
    · rw [exec, if_neg (by omega)]; exact ⟨_, rfl⟩

/-! ## Property theorems -/

/-- C169, the part that holds.  `c?p`, for `p` without quantifiers and alternatives, compiles, and in a text that begins with a character of `c` and goes on
with a match of `p` that match is found, with the character; the captures hold what the groups of `p` matched.  Missing, and false by the theorems below:
texts in which the character is not there, or has to be left for `p`. -/
theorem C169_optional_partial {c : Cls} {p : Pat} {pat block : List Byte} {plen len j : Nat} {d : Byte} {cs : List (Nat × Nat)} (hc : c.Ok) (hok : p.Ok false)
    (hplus : p.hasPlus = false) (hg : p.groups ≤ 256) (hpl : plen ≤ pat.length) (hp : pat.take plen = c.spell ++ 0x3f#8 :: p.spell)
    (hl : len < block.length) (h0 : 0 < len) (hd : block[0]? = some d) (hn : c.has d = true) (hm : Matches (block.take len) p 1 j cs) :
    ∃ re, compile pat plen = .ok (.none, re, false) ∧ re.captures = p.groups ∧ ∀ caps, ∃ caps', caps'.length = caps.length ∧ Holds cs 0 caps' ∧
      ∃ N, ∀ n, N ≤ n → reMatch re block len n caps = .ok (true, caps', some j) := by
  obtain ⟨re, h1, h2, h3⟩ := compile_opt hc hok hplus hg hpl hp
  refine ⟨re, h1, h3, fun caps => ?_⟩
  have hins := flat_ok p false 0 hok (by omega)
  have hcalm : Calm block len (p.flat 0) := by
    have := calm_append (block := block) (len := len) (js := []) (no_plus 0 hplus) trivial
    simpa using this
  have hj := matches_le hm (by simp; omega)
  simp only [List.length_take] at hj
  obtain ⟨caps1, k1, k2, k3, -⟩ := matches_run (by omega : len ≤ block.length) rfl hm (by omega) 0 [] j (by simpa using hins) (by simpa using hcalm)
    (by simp [Outside]) (fun c => ⟨c, rfl⟩) caps
  rw [List.append_nil, run] at k1
  obtain ⟨N, hN⟩ := exec_run (by omega : len ≤ block.length) (p.flat 0) ([13#8] ++ c.ops) 1 caps j caps1 (by omega) hins (fun _ _ _ => hl) k1
  refine ⟨caps1, k2, k3, N + 3, fun n hn' => ?_⟩
  obtain ⟨m, rfl⟩ : ∃ m, n = m + 3 := ⟨n - 3, by omega⟩
  obtain ⟨o, ho, ho'⟩ := hN (m + 1) (by omega)
  have ho' := ho' (by omega) (by omega)
  have e : (([13#8] ++ c.ops).length : Int) = 1 + c.ops.length := by simp; omega
  rw [e] at ho
  have hs := opt_present hc hl h0 hd hn (by omega) ho
  obtain ⟨o', he⟩ := exec_opt hs (Or.inr ho') (by omega)
  rw [reMatch_opt h2]
  obtain ⟨k, rfl⟩ : ∃ k, len = k + 1 := ⟨len - 1, by omega⟩
  rw [matchLoop, h2, he, except_ok_bind]
  dsimp only
  rw [if_pos (by omega)]

/-- What `p` has to begin with to be read from the text. -/
def Pat.Reads (room : Nat) : Pat → Prop
  | .lit s _ => s.length ≤ room
  | .one c _ => c ≠ .any
  | _ => False

theorem exec_before {p : Pat} {pre block : List Byte} {len : Nat} (hok : p.Ok false) (hp : p.Reads (len + 1)) (n : Nat) (caps : List Cap) :
    exec (pre ++ opsOf (p.flat 0)) block len (n + 2) pre.length (-1) caps = .error .oob := by
  cases p with
  | nil => exact hp.elim
  | plus => exact hp.elim
  | bol => exact hp.elim
  | eol => exact hp.elim
  | group => exact hp.elim
  | lit s p =>
    obtain ⟨-, hs0, hs, h127, -⟩ := hok
    have hs0 : 0 < s.length := List.length_pos_iff.2 hs0
    have hp : s.length ≤ len + 1 := hp
    have e : pre ++ opsOf ((Pat.lit s p).flat 0) = pre ++ 4#8 :: (BitVec.ofNat 8 s.length :: (s ++ opsOf (p.flat 0))) := by
      simp [Pat.flat, opsOf_cons, Instr.ops]
    have e2 : pre ++ 4#8 :: (BitVec.ofNat 8 s.length :: (s ++ opsOf (p.flat 0))) = (pre ++ [4#8]) ++ BitVec.ofNat 8 s.length :: (s ++ opsOf (p.flat 0)) := by simp
    have hsl : (BitVec.ofNat 8 s.length).toInt = s.length := by
      rw [BitVec.toInt_eq_toNat_of_lt (by simp; omega)]; simp; omega
    rw [exec, if_pos (by rw [e]; simp; omega), single, e, rdI_append _ _ _ rfl, except_ok_bind]
    have : simple (pre ++ 4#8 :: (BitVec.ofNat 8 s.length :: (s ++ opsOf (p.flat 0)))) block len 4#8 (pre.length + 1) (-1) caps = .error .oob := by
      rw [simple]
      simp only [BitVec.reduceEq, if_false, if_true]
      rw [exact, e2, rdI_append _ _ _ (by simp), except_ok_bind, hsl]
      dsimp only
      rw [if_neg (by omega), if_neg (by omega), if_pos (by omega)]
      rfl
    rw [this]
    rfl
  | one c p =>
    have hp : c ≠ .any := hp
    obtain ⟨hx, hc, -⟩ := hok
    have e : pre ++ opsOf ((Pat.one c p).flat 0) = pre ++ (c.ops ++ opsOf (p.flat 0)) := by simp [Pat.flat, opsOf_cons, Instr.ops]
    have hm : ∀ (code : Byte) (r : List Byte), c.ops = code :: r →
        simple (pre ++ code :: (r ++ opsOf (p.flat 0))) block len code (pre.length + 1) (-1) caps = .error .oob →
        exec (pre ++ opsOf ((Pat.one c p).flat 0)) block len (n + 2) pre.length (-1) caps = .error .oob := by
      intro code r h1 h2
      have e' : pre ++ opsOf ((Pat.one c p).flat 0) = pre ++ code :: (r ++ opsOf (p.flat 0)) := by rw [e, h1]; rfl
      rw [exec, if_pos (by rw [e']; simp; omega), single, e', rdI_append _ _ _ rfl, except_ok_bind, h2]
      rfl
    have hmeta : ∀ a r, simple (pre ++ 5#8 :: (a :: r)) block len 5#8 (pre.length + 1) (-1) caps = .error .oob := by
      intro a r
      have e2 : pre ++ 5#8 :: (a :: r) = (pre ++ [5#8]) ++ a :: r := by simp
      rw [simple]
      simp only [BitVec.reduceEq, if_false, if_true]
      rw [metaMatch, e2, rdI_append _ _ _ (by simp), except_ok_bind]
      rfl
    cases c with
    | chr x => exact absurd rfl (hx x)
    | any => exact absurd rfl hp
    | esc e =>
      rcases esc_cases hc.1 hc.2 with ⟨k, hk, -⟩ | ⟨b, hk, -, -⟩
      · exact hm 5#8 [0, k] (by simp [Cls.ops, hk]) (hmeta _ _)
      · exact hm 5#8 [b] (by simp [Cls.ops, hk]) (hmeta _ _)
    | hex h l => exact hm 5#8 [hexByte h l] rfl (hmeta _ _)
    | set neg items =>
      refine hm _ _ rfl ?_
      cases neg <;> rfl

/-- C169 is false in full.  Where the text does not begin with a character of `c`, `c?p` reads the character in front of the text, if `p` begins with
something that has to be compared: ordinary characters (not more of them than there are in the text, and one), a class or a set.  `p` may well match. -/
theorem C169_optional_absent {c : Cls} {p : Pat} {pat block : List Byte} {plen len : Nat} {d : Byte} (hc : c.Ok) (hok : p.Ok false)
    (hplus : p.hasPlus = false) (hg : p.groups ≤ 256) (hpl : plen ≤ pat.length) (hp : pat.take plen = c.spell ++ 0x3f#8 :: p.spell) (hread : p.Reads (len + 1))
    (hl : len < block.length) (h0 : 0 < len) (hd : block[0]? = some d) (hn : c.has d = false) :
    ∃ re, compile pat plen = .ok (.none, re, false) ∧ ∀ n caps, 4 ≤ n → reMatch re block len n caps = .error .oob := by
  obtain ⟨re, h1, h2, h3⟩ := compile_opt hc hok hplus hg hpl hp
  refine ⟨re, h1, fun n caps hn4 => ?_⟩
  obtain ⟨m, rfl⟩ : ∃ m, n = m + 4 := ⟨n - 4, by omega⟩
  have hb := exec_before (pre := [13#8] ++ c.ops) (block := block) hok hread m caps
  have e : (([13#8] ++ c.ops).length : Int) = 1 + c.ops.length := by simp; omega
  rw [e] at hb
  have hs := opt_absent hc hl h0 hd hn hb (by simp)
  rw [reMatch_opt h2]
  obtain ⟨k, rfl⟩ : ∃ k, len = k + 1 := ⟨len - 1, by omega⟩
  have he : exec re.buf block ((k + 1 : Nat) : Int) (m + 4) 0 ((0 : Nat) : Int) caps = .error .oob := by
    rw [h2, exec, if_pos (by simp; omega), hs]
    rfl
  rw [matchLoop, he]
  rfl

/-- C169 is false in full.  Where the text does not begin with a character of `c`, `c?.p` does what `p` does at the start of the text: the `.` stands for the
character in front of it.  So it finds a match of `p` that has no character before it. -/
theorem C169_optional_any {c : Cls} {p : Pat} {pat block : List Byte} {plen len j : Nat} {d : Byte} {cs : List (Nat × Nat)} (hc : c.Ok) (hok : p.Ok false)
    (hplus : p.hasPlus = false) (hg : p.groups ≤ 256) (hpl : plen ≤ pat.length) (hp : pat.take plen = c.spell ++ 0x3f#8 :: 0x2e#8 :: p.spell)
    (hl : len < block.length) (h0 : 0 < len) (hd : block[0]? = some d) (hn : c.has d = false) (hm : Matches (block.take len) p 0 j cs) :
    ∃ re, compile pat plen = .ok (.none, re, false) ∧ ∀ caps, ∃ caps', caps'.length = caps.length ∧ Holds cs 0 caps' ∧
      ∃ N, ∀ n, N ≤ n → reMatch re block len n caps = .ok (true, caps', some j) := by
  obtain ⟨re, h1, h2, h3⟩ := compile_opt (p := .one .any p) hc ⟨by simp, trivial, hok⟩ hplus hg hpl hp
  refine ⟨re, h1, fun caps => ?_⟩
  have hins := flat_ok p false 0 hok (by omega)
  have hcalm : Calm block len (p.flat 0) := by
    have := calm_append (block := block) (len := len) (js := []) (no_plus 0 hplus) trivial
    simpa using this
  have hj := matches_le hm (by simp)
  simp only [List.length_take] at hj
  obtain ⟨caps1, k1, k2, k3, -⟩ := matches_run (by omega : len ≤ block.length) rfl hm (by omega) 0 [] j (by simpa using hins) (by simpa using hcalm)
    (by simp [Outside]) (fun c => ⟨c, rfl⟩) caps
  rw [List.append_nil, run] at k1
  obtain ⟨N, hN⟩ := exec_run (by omega : len ≤ block.length) (p.flat 0) ([13#8] ++ c.ops ++ [6#8]) 0 caps j caps1 (by omega) hins (fun _ _ _ => hl) k1
  refine ⟨caps1, k2, k3, N + 4, fun n hn' => ?_⟩
  obtain ⟨m, rfl⟩ : ∃ m, n = m + 4 := ⟨n - 4, by omega⟩
  obtain ⟨o, ho, ho'⟩ := hN (m + 1) (by omega)
  have ho' := ho' (by omega) (by omega)
  have e : [13#8] ++ c.ops ++ [6#8] ++ opsOf (p.flat 0) = [13#8] ++ c.ops ++ opsOf ((Pat.one .any p).flat 0) := by
    simp [Pat.flat, opsOf_cons, Instr.ops, Cls.ops]
  rw [e] at ho ho'
  have hexec : exec ([13#8] ++ c.ops ++ opsOf ((Pat.one .any p).flat 0)) block len (m + 1 + 1) (1 + c.ops.length) (-1) caps = .ok (⟨o, j⟩, caps1) := by
    have hrd : rdI ([13#8] ++ c.ops ++ opsOf ((Pat.one .any p).flat 0)) (1 + c.ops.length) = .ok 6#8 := by
      have : [13#8] ++ c.ops ++ opsOf ((Pat.one .any p).flat 0) = ([13#8] ++ c.ops) ++ 6#8 :: opsOf (p.flat 0) := by
        simp [Pat.flat, opsOf_cons, Instr.ops, Cls.ops]
      rw [this]
      exact rdI_append _ _ _ (by simp; omega)
    rw [exec, if_pos (by rw [← e]; simp; omega), single, hrd, except_ok_bind]
    have hsim : simple ([13#8] ++ c.ops ++ opsOf ((Pat.one .any p).flat 0)) block len 6#8 (1 + c.ops.length + 1) (-1) caps =
        .ok (some (⟨1 + c.ops.length + 1, 0⟩, caps)) := by
      have := simple_any ([13#8] ++ c.ops ++ opsOf ((Pat.one .any p).flat 0)) block len (1 + c.ops.length + 1) (-1) caps
      rw [if_pos (by omega)] at this
      exact this
    rw [hsim, except_ok_bind]
    dsimp only
    rw [except_ok_bind]
    dsimp only
    rw [if_neg (by omega)]
    have e4 : ((([13#8] ++ c.ops ++ [6#8]).length : Nat) : Int) = 1 + c.ops.length + 1 := by simp; omega
    rw [e4] at ho
    exact ho
  have hs := opt_absent hc hl h0 hd hn hexec (by
    intro o' r' c' h
    simp only [Except.ok.injEq, Prod.mk.injEq, Ctx.mk.injEq] at h
    omega)
  obtain ⟨o', he⟩ := exec_opt hs (Or.inr ho') (by omega)
  rw [reMatch_opt h2]
  obtain ⟨k, rfl⟩ : ∃ k, len = k + 1 := ⟨len - 1, by omega⟩
  rw [matchLoop, h2, he, except_ok_bind]
  dsimp only
  rw [if_pos (by omega)]

/-- Attempts that all fail. -/
theorem matchLoop_fail {re : Re} {block : List Byte} {len : Nat} {caps : List Cap} (h : ∀ i, i < len → ∃ N, ∀ n, N ≤ n → ∃ o, exec re.buf block len n 0 i caps = .ok (⟨o, -1⟩, caps)) :
    ∀ k i, i + k = len → ∃ N, ∀ n, N ≤ n → matchLoop re block len n k i caps = .ok (false, caps, none) := by
  intro k
  induction k with
  | zero => intro i _; exact ⟨0, fun n _ => rfl⟩
  | succ k ih =>
    intro i hik
    obtain ⟨N1, h1⟩ := ih (i + 1) (by omega)
    obtain ⟨N2, h2⟩ := h i (by omega)
    refine ⟨N1 + N2, fun n hn => ?_⟩
    obtain ⟨o, ho⟩ := h2 n (by omega)
    rw [matchLoop, ho, except_ok_bind]
    dsimp only
    rw [if_neg (by omega), if_neg (by omega)]
    exact h1 n (by omega)

/-- C169 is false in full.  What `c?` has taken it keeps: for ordinary characters `s` of the class, `c?s` is not found in the text `s`. -/
theorem C169_optional_kept {c : Cls} {s pat rest : List Byte} {plen : Nat} (hc : c.Ok) (hs : Ordinary s) (h0 : s ≠ []) (h127 : s.length ≤ 127)
    (hcs : ∀ d ∈ s, c.has d = true) (hpl : plen ≤ pat.length) (hp : pat.take plen = c.spell ++ 0x3f#8 :: s) (hr : rest ≠ []) :
    ∃ re, compile pat plen = .ok (.none, re, false) ∧ ∀ caps, ∃ N, ∀ n, N ≤ n → reMatch re (s ++ rest) s.length n caps = .ok (false, caps, none) := by
  have hok : (Pat.lit s .nil).Ok false := ⟨rfl, h0, hs, by simpa [Pat.extra] using h127, trivial⟩
  obtain ⟨re, h1, h2, -⟩ := compile_opt (p := .lit s .nil) hc hok rfl (by simp [Pat.groups]) hpl (by simpa [Pat.spell] using hp)
  refine ⟨re, h1, fun caps => ?_⟩
  have hrl := List.length_pos_iff.2 hr
  have hl : s.length < (s ++ rest).length := by simp; omega
  have hins := flat_ok (.lit s .nil) false 0 hok (by simp [Pat.groups])
  obtain ⟨N, hN⟩ := matchLoop_fail (re := re) (block := s ++ rest) (len := s.length) (caps := caps) (fun i hi => by
    have hrun : run (s ++ rest) s.length ((Pat.lit s .nil).flat 0) (i + 1) caps = .ok (-1, caps) := by
      rw [Pat.flat, run, if_neg]
      intro h
      have := h.length_le
      simp at this
      omega
    obtain ⟨N, hN⟩ := exec_run (by omega : s.length ≤ (s ++ rest).length) _ ([13#8] ++ c.ops) (i + 1) caps (-1) caps (by omega) hins (fun _ _ _ => hl) hrun
    refine ⟨N + 3, fun n hn => ?_⟩
    obtain ⟨m, rfl⟩ : ∃ m, n = m + 3 := ⟨n - 3, by omega⟩
    obtain ⟨o, ho, -⟩ := hN (m + 1) (by omega)
    have e : (([13#8] ++ c.ops).length : Int) = 1 + c.ops.length := by simp; omega
    rw [e] at ho
    have hd : (s ++ rest)[i]? = some s[i] := by rw [List.getElem?_append_left hi, List.getElem?_eq_getElem hi]
    have := opt_present hc hl hi hd (hcs _ (List.getElem_mem hi)) (by omega) ho
    obtain ⟨o', he⟩ := exec_opt this (Or.inl rfl) (by omega)
    exact ⟨o', by rw [h2]; exact he⟩) s.length 0 (by omega)
  exact ⟨N, fun n hn => by rw [reMatch_opt h2]; exact hN n hn⟩

theorem exec_alone {c : Cls} {block : List Byte} {len n : Nat} {off : Int} {caps : List Cap} :
    exec ([13#8] ++ c.ops ++ []) block len (n + 1) (1 + c.ops.length) off caps = .ok (⟨1 + c.ops.length, off⟩, caps) := by
  rw [exec, if_neg (by simp; omega)]

/-- C169 is false in full.  `c?` alone is found only where a character of `c` stands; a text without one has no match, although `c?` matches nothing
anywhere. -/
theorem C169_optional_alone {c : Cls} {pat block : List Byte} {plen len : Nat} (hc : c.Ok) (hpl : plen ≤ pat.length)
    (hp : pat.take plen = c.spell ++ [0x3f#8]) (hl : len < block.length) (hno : ∀ i, i < len → ∀ d, block[i]? = some d → c.has d = false) :
    ∃ re, compile pat plen = .ok (.none, re, false) ∧ ∀ caps, ∃ N, ∀ n, N ≤ n → reMatch re block len n caps = .ok (false, caps, none) := by
  obtain ⟨re, h1, h2, -⟩ := compile_opt (p := .nil) hc trivial rfl (by simp [Pat.groups]) hpl (by simpa [Pat.spell] using hp)
  refine ⟨re, h1, fun caps => ?_⟩
  have h2 : re.buf = [13#8] ++ c.ops ++ [] := h2
  obtain ⟨N, hN⟩ := matchLoop_fail (re := re) (block := block) (len := len) (caps := caps) (fun i hi => by
    refine ⟨3, fun n hn => ?_⟩
    obtain ⟨m, rfl⟩ : ∃ m, n = m + 3 := ⟨n - 3, by omega⟩
    have hd : block[i]? = some block[i] := List.getElem?_eq_getElem (by omega)
    have := opt_absent hc hl hi hd (hno i hi _ hd) (exec_alone (n := m)) (by
      intro o r c' h
      simp only [Except.ok.injEq, Prod.mk.injEq, Ctx.mk.injEq] at h
      omega) (caps := caps)
    obtain ⟨o', he⟩ := exec_opt this (Or.inl rfl) (by omega)
    exact ⟨o', by rw [h2]; exact he⟩) len 0 (by omega)
  exact ⟨N, fun n hn => by rw [reMatch_opt h2]; exact hN n hn⟩

/-- C169: what the four theorems above go against.  The usual meaning of `c?p` has a match wherever `p` has one. -/
theorem C169_optional_usual {text : List Byte} {c : Cls} {p : Pat} {i j : Nat} {cs : List (Nat × Nat)} (h : Matches text p i j cs) : MatchesOpt text c p i j :=
  Or.inr ⟨cs, h⟩

/-- C169: and a match of `c?.p` takes a character in front of that of `p`, so none of them is as short as a match of `p` that begins where the text does. -/
theorem C169_any_takes_one {text : List Byte} {c : Cls} {p : Pat} {i j : Nat} (h : MatchesOpt text c (.one .any p) i j) :
    ∃ k cs, i < k ∧ Matches text p k j cs := by
  rcases h with ⟨cs, h⟩ | ⟨cs, h⟩
  · cases h with
    | one _ _ h =>
      cases h with
      | one _ _ h => exact ⟨_, _, by omega, h⟩
  · cases h with
    | one _ _ h => exact ⟨_, _, by omega, h⟩

/-! ## Instances -/

/-- `a?(b)` in the text `abc`. -/
example (caps : List Cap) : ∃ re, compile [0x61#8, 0x3f#8, 0x28#8, 0x62#8, 0x29#8] 5 = .ok (.none, re, false) ∧
    ∃ caps', Holds [(1, 1)] 0 caps' ∧ ∃ N, ∀ n, N ≤ n → reMatch re [0x61#8, 0x62#8, 0x63#8, 0#8] 3 n caps = .ok (true, caps', some 2) := by
  obtain ⟨re, h1, -, h2⟩ := C169_optional_partial (c := .chr 0x61#8) (p := .group (.lit [0x62#8] .nil) .nil) (pat := [0x61#8, 0x3f#8, 0x28#8, 0x62#8, 0x29#8]) (plen := 5)
    (block := [0x61#8, 0x62#8, 0x63#8, 0#8]) (len := 3) (j := 2) (d := 0x61#8) (cs := [(1, 1)])
    (by simp [Cls.Ok, metaChars]) (by simp [Pat.Ok, Ordinary, metaChars, Pat.extra]) rfl (by simp [Pat.groups]) (by simp) rfl (by simp) (by omega) rfl rfl
    (.group (k := 2) (cs := []) (.lit (by decide) .nil) .nil)
  obtain ⟨caps', -, h3, h4⟩ := h2 caps
  exact ⟨re, h1, caps', h3, h4⟩

/-- `a?b` in the text `bc`: the match is there, and the matcher reads in front of the text. -/
example (caps : List Cap) (n : Nat) (hn : 4 ≤ n) : (∃ re, compile [0x61#8, 0x3f#8, 0x62#8] 3 = .ok (.none, re, false) ∧
    reMatch re [0x62#8, 0x63#8, 0#8] 2 n caps = .error .oob) ∧ MatchesOpt [0x62#8, 0x63#8] (.chr 0x61#8) (.lit [0x62#8] .nil) 0 1 := by
  obtain ⟨re, h1, h2⟩ := C169_optional_absent (c := .chr 0x61#8) (p := .lit [0x62#8] .nil) (pat := [0x61#8, 0x3f#8, 0x62#8]) (plen := 3)
    (block := [0x62#8, 0x63#8, 0#8]) (len := 2) (d := 0x62#8) (by simp [Cls.Ok, metaChars]) (by simp [Pat.Ok, Ordinary, metaChars, Pat.extra]) rfl
    (by simp [Pat.groups]) (by simp) rfl (by simp [Pat.Reads]) (by simp) (by omega) rfl rfl
  exact ⟨⟨re, h1, h2 n caps hn⟩, C169_optional_usual (.lit (by decide) .nil)⟩

/-- `a?.b` is found in the text `b`, which is too short for it. -/
example (caps : List Cap) : (∃ re, compile [0x61#8, 0x3f#8, 0x2e#8, 0x62#8] 4 = .ok (.none, re, false) ∧
    ∃ caps' N, ∀ n, N ≤ n → reMatch re [0x62#8, 0#8] 1 n caps = .ok (true, caps', some 1)) ∧
    ∀ i j, ¬ MatchesOpt [0x62#8] (.chr 0x61#8) (.one .any (.lit [0x62#8] .nil)) i j := by
  obtain ⟨re, h1, h2⟩ := C169_optional_any (c := .chr 0x61#8) (p := .lit [0x62#8] .nil) (pat := [0x61#8, 0x3f#8, 0x2e#8, 0x62#8]) (plen := 4)
    (block := [0x62#8, 0#8]) (len := 1) (j := 1) (d := 0x62#8) (cs := []) (by simp [Cls.Ok, metaChars]) (by simp [Pat.Ok, Ordinary, metaChars, Pat.extra]) rfl
    (by simp [Pat.groups]) (by simp) rfl (by simp) (by omega) rfl rfl (.lit (by decide) .nil)
  obtain ⟨caps', -, -, N, h3⟩ := h2 caps
  refine ⟨⟨re, h1, caps', N, h3⟩, fun i j h => ?_⟩
  obtain ⟨k, cs, hk, hm⟩ := C169_any_takes_one h
  have h4 := (matches_lit.1 hm).1.length_le
  simp at h4
  omega

/-- `a?a` in the text `a`, and `[ab]?ba` in `ba`. -/
example (caps : List Cap) : ∃ re, compile [0x61#8, 0x3f#8, 0x61#8] 3 = .ok (.none, re, false) ∧
    ∃ N, ∀ n, N ≤ n → reMatch re [0x61#8, 0#8] 1 n caps = .ok (false, caps, none) := by
  obtain ⟨re, h1, h2⟩ := C169_optional_kept (c := .chr 0x61#8) (s := [0x61#8]) (pat := [0x61#8, 0x3f#8, 0x61#8]) (plen := 3) (rest := [0#8])
    (by simp [Cls.Ok, metaChars]) (by simp [Ordinary, metaChars]) (by simp) (by simp) (by simp [Cls.has]) (by simp) rfl (by simp)
  exact ⟨re, h1, h2 caps⟩

example (caps : List Cap) : ∃ re, compile [0x5b#8, 0x61#8, 0x62#8, 0x5d#8, 0x3f#8, 0x62#8, 0x61#8] 7 = .ok (.none, re, false) ∧
    ∃ N, ∀ n, N ≤ n → reMatch re [0x62#8, 0x61#8, 0#8] 2 n caps = .ok (false, caps, none) := by
  obtain ⟨re, h1, h2⟩ := C169_optional_kept (c := .set false [.chr 0x61#8, .chr 0x62#8]) (s := [0x62#8, 0x61#8])
    (pat := [0x5b#8, 0x61#8, 0x62#8, 0x5d#8, 0x3f#8, 0x62#8, 0x61#8]) (plen := 7) (rest := [0#8])
    (by simp [Cls.Ok, Item.Ok]) (by simp [Ordinary, metaChars]) (by simp) (by simp) (by simp [Cls.has, Item.has]) (by simp) rfl (by simp)
  exact ⟨re, h1, h2 caps⟩

/-- `a?` in the text `bc`. -/
example (caps : List Cap) : ∃ re, compile [0x61#8, 0x3f#8] 2 = .ok (.none, re, false) ∧
    ∃ N, ∀ n, N ≤ n → reMatch re [0x62#8, 0x63#8, 0#8] 2 n caps = .ok (false, caps, none) := by
  obtain ⟨re, h1, h2⟩ := C169_optional_alone (c := .chr 0x61#8) (pat := [0x61#8, 0x3f#8]) (plen := 2) (block := [0x62#8, 0x63#8, 0#8]) (len := 2)
    (by simp [Cls.Ok, metaChars]) (by simp) rfl (by simp) (by
      intro i hi d hd
      match i, hi with
      | 0, _ => simp at hd; subst hd; rfl
      | 1, _ => simp at hd; subst hd; rfl)
  exact ⟨re, h1, h2 caps⟩

end Zpl.Regex
