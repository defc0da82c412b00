import Mathlib.Data.List.Forall2
import Verif.Parse.Uri
import Verif.Parse.NumberPrint
import Verif.Str.Token

/-!
# Whole URIs: an origin and parameters (code/source/parsers/uri.c:33-112, 140-180)  -  C113

## Model -/

namespace Zpl.UriDoc

open Zpl Zpl.Str Zpl.Print Zpl.Fprintf Zpl.Uri Zpl.Number

/-- uri.c:60, 78, 90: `while (*p && !stop(*p)) ++p;`, the number of characters passed. -/
def scanTo (stop : Byte → Bool) : List Byte → Except Fault Nat
  | [] => .error .oob
  | c :: s => if c = 0 ∨ stop c = true then .ok 0 else do .ok ((← scanTo stop s) + 1)

/-- uri.c:60, where the origin ends. -/
def originStop (c : Byte) : Bool := c == 0x3f#8 || Token.isSpace c

/-- uri.c:78, where a name ends. -/
def nameStop (c : Byte) : Bool := c == 0x26#8 || c == 0x3f#8 || c == 0x3d#8 || Token.isSpace c

/-- uri.c:90, where a value ends. -/
def valueStop (c : Byte) : Bool := c == 0x26#8 || c == 0x3f#8 || Token.isSpace c

/-- `zpl__uri_decode_str(b)` for a pointer into the text. -/
def decodeAt (text : List Byte) (b : Nat) : Except Fault (List Byte) := do .ok (text.take b ++ (← decode (text.drop b)))

/-- The value of a node that was read: a pointer into the text, or a number. -/
inductive Value (ρ : Type) where
  | str (at_ : Nat)
  | num (n : Num ρ)

/-- A node that was read: pointers are offsets into the text. -/
structure Entry (ρ : Type) where
  name : Nat
  value : Value ρ

/-- uri.c:75-109, `p` is the offset; the nodes appended and the text with all that was written into it.  `one` is the real number 1.  Appending nodes is taken to succeed
(C62).  `fuel` bounds the rounds; with too little the result is `diverge`. -/
def loop {ρ : Type} (F : Reals ρ) (one : ρ) : Nat → List Byte → Nat → Except Fault (List (Entry ρ) × List Byte)
  | 0, _, _ => .error .diverge
  | fuel + 1, text, p => do
    let c ← rd text p
    if c = 0 ∨ Token.isSpace c = true then .ok ([], text)
    else do
      let k ← scanTo nameStop (text.drop p)
      let c ← rd text (p + k)
      let text ← wr text (p + k) 0
      let text ← decodeAt text p
      if c = 0x3d#8 then do
        let b := p + k + 1
        let k ← scanTo valueStop (text.drop b)
        let c ← rd text (b + k)
        let text ← wr text (b + k) 0
        let text ← decodeAt text b
        let (v, _) ← parseNumberStrict F (text.drop b)
        let e : Entry ρ := ⟨p, match v with | some n => .num n | none => .str b⟩
        if c = 0 then .ok ([e], text)
        else do
          let (es, text) ← loop F one fuel text (b + k + 1)
          .ok (e :: es, text)
      else do
        let e : Entry ρ := ⟨p, .num { val := .real one, props := .true }⟩
        if c = 0 then .ok ([e], text)
        else do
          let (es, text) ← loop F one fuel text (p + k + 1)
          .ok (e :: es, text)

/-- What `zpl_uri_parse` leaves behind: the node `__zpl_origin__`, if there is one, the other nodes, and the text. -/
structure Parsed (ρ : Type) where
  origin : Option Nat
  params : List (Entry ρ)
  text : List Byte

/-- uri.c:43-112 `zpl_uri_parse`. -/
def parse {ρ : Type} (F : Reals ρ) (one : ρ) (text : List Byte) : Except Fault (Parsed ρ) := do
  let b ← Token.trim false text
  let c ← rd text b
  if c = 0 then .ok ⟨none, [], text⟩
  else if c ≠ 0x3f#8 then do
    let k ← scanTo originStop (text.drop b)
    let c ← rd text (b + k)
    let text ← wr text (b + k) 0
    if c = 0 then .ok ⟨some b, [], text⟩
    else do
      let (es, text) ← loop F one (text.length + 1) text (b + k + 1)
      .ok ⟨some b, es, text⟩
  else do
    let (es, text) ← loop F one (text.length + 1) text (b + 1)
    .ok ⟨none, es, text⟩

/-- A node to be written: its name and its value, `other` for what is neither text nor number. -/
inductive Content (ρ : Type) where
  | str (s : List Byte)
  | num (n : Num ρ)
  | other

structure Node (ρ : Type) where
  name : List Byte
  value : Content ρ

/-- `"__zpl_origin__"` -/
def originName : List Byte := [0x5f#8, 0x5f#8, 0x7a#8, 0x70#8, 0x6c#8, 0x5f#8, 0x6f#8, 0x72#8, 0x69#8, 0x67#8, 0x69#8, 0x6e#8, 0x5f#8, 0x5f#8]

/-- uri.c:149, `zpl_adt_query(obj, "__zpl_origin__")`: the first child of that name (C63; here the names are texts, none is NULL). -/
def originIndex {ρ : Type} (nodes : List (Node ρ)) : Option Nat := nodes.findIdx? (fun n => n.name == originName)

/-- uri.c:165-174. -/
def writeValue {ρ : Type} (F : Reals ρ) (pf : FloatPrinter) (o : Out) : Content ρ → Except Fault Out
  | .str s => do
    let o ← fprintf pf o [0x25#8, 0x63#8, 0] [.int 0x3d#32]
    printStr pf o (s ++ [0])
  | .num n =>
    if n.props ≠ .true then do
      let o ← fprintf pf o [0x25#8, 0x63#8, 0] [.int 0x3d#32]
      printNumber F pf o n
    else .ok o
  | .other => .ok o

/-- uri.c:159-179, from index `i` of `count` on. -/
def writeNodes {ρ : Type} (F : Reals ρ) (pf : FloatPrinter) (origin : Option Nat) (count : Nat) : Nat → List (Node ρ) → Out → Except Fault Out
  | _, [], o => .ok o
  | i, n :: ns, o =>
    if origin = some i then writeNodes F pf origin count (i + 1) ns o
    else do
      let o ← printStr pf o (n.name ++ [0])
      let o ← writeValue F pf o n.value
      let o ← if i + 1 < count then fprintf pf o [0x25#8, 0x73#8, 0] [.str (some [0x26#8, 0])] else .ok o
      writeNodes F pf origin count (i + 1) ns o

/-- uri.c:147-153: the origin is the format; if its node holds no text the bits of a number are taken for a pointer. -/
def writeOrigin {ρ : Type} (pf : FloatPrinter) (nodes : List (Node ρ)) (o : Out) : Except Fault Out :=
  match (originIndex nodes).bind (nodes[·]?) with
  | none => .ok o
  | some n => match n.value with
    | .str s => fprintf pf o (s ++ [0]) []
    | _ => .error .ub

/-- uri.c:140-180 `zpl_uri_write` of an object with these children. -/
def write {ρ : Type} (F : Reals ρ) (pf : FloatPrinter) (nodes : List (Node ρ)) (o : Out) : Except Fault Out := do
  let o ← writeOrigin pf nodes o
  let o ← if 0 < nodes.length then fprintf pf o [0x25#8, 0x73#8, 0] [.str (some [0x3f#8, 0])] else .ok o
  writeNodes F pf (originIndex nodes) nodes.length 0 nodes o

/-! ## Specification -/

/-- The value of a parameter: a text, a flag without a value, or an integer. -/
inductive PVal where
  | text (s : List Byte)
  | flag
  | int (v : Int)

/-- A URI: where it leads and its parameters. -/
structure Doc where
  origin : Option (List Byte)
  params : List (List Byte × PVal)

/-- The children of the object that stands for a URI, as `zpl_uri_init`, `zpl_adt_append_str` and so on make them. -/
def PVal.content {ρ : Type} (one : ρ) : PVal → Content ρ
  | .text s => .str s
  | .flag => .num { val := .real one, props := .true }
  | .int v => .num { val := .int v }

def Doc.nodes {ρ : Type} (one : ρ) (d : Doc) : List (Node ρ) :=
  (d.origin.map (fun s => (⟨originName, .str s⟩ : Node ρ))).toList ++ d.params.map fun p => ⟨p.1, p.2.content one⟩

/-- A text that is not taken for a number: it is empty, begins with `e`, or has a character that is no digit, letter up to `f`, sign or dot. -/
def NotNumeric (s : List Byte) : Prop :=
  s = [] ∨ s.head? = some 0x65#8 ∨ s.head? = some 0x45#8 ∨ ∃ x ∈ s, ¬ (Chars.isHexDigit x = true ∨ x ∈ [0x2e#8, 0x2b#8, 0x2d#8])

def PVal.Ok : PVal → Prop
  | .text s => Text s ∧ s.length < 65536 ∧ NotNumeric s
  | .flag => True
  | .int v => -(2 ^ 63) < v ∧ v < 2 ^ 63

/-- The URIs that survive. -/
structure Doc.Ok (d : Doc) : Prop where
  origin : ∀ s, d.origin = some s → s ≠ [] ∧ s.length < 65535 ∧ ∀ c ∈ s, c ≠ 0 ∧ c ≠ 0x3f#8 ∧ c ≠ 0x25#8 ∧ ¬ Token.Blank c
  names : ∀ p ∈ d.params, Text p.1 ∧ p.1.length < 65536
  values : ∀ p ∈ d.params, p.2.Ok
  noOrigin : d.origin = none → ∀ p ∈ d.params, p.1 ≠ originName
  last : d.params.getLast? ≠ some ([], .flag)

/-- The entry stands for the parameter: its name and value can be read in the text. -/
def Entry.Is {ρ : Type} (one : ρ) (text : List Byte) (e : Entry ρ) (p : List Byte × PVal) : Prop :=
  Copy.Reads (text.drop e.name) p.1 ∧
  match p.2, e.value with
  | .text s, .str b => Copy.Reads (text.drop b) s
  | .flag, .num n => n = { val := .real one, props := .true }
  | .int v, .num n => n = { val := .int v }
  | _, _ => False

/-- What was read is the URI. -/
def Parsed.Is {ρ : Type} (one : ρ) (r : Parsed ρ) (d : Doc) : Prop :=
  (match r.origin, d.origin with
    | some b, some s => Copy.Reads (r.text.drop b) s
    | none, none => True
    | _, _ => False) ∧
  List.Forall₂ (Entry.Is one r.text) r.params d.params

/-! ## Lemmas -/

theorem scanTo_ok {stop : Byte → Bool} {s : List Byte} (hs : ∀ c ∈ s, c ≠ 0 ∧ stop c = false) {x : Byte} (hx : x = 0 ∨ stop x = true) (r : List Byte) :
    scanTo stop (s ++ x :: r) = .ok s.length := by
  induction s with
  | nil => rw [List.nil_append, scanTo, if_pos hx]; rfl
  | cons c s ih =>
    have hc := hs c (by simp)
    rw [List.cons_append, scanTo, if_neg (by rintro (h | h); exacts [hc.1 h, by rw [hc.2] at h; cases h]), ih (fun c h => hs c (List.mem_cons_of_mem _ h))]
    rfl

theorem decode_enc {s : List Byte} (hs : Text s) (hl : s.length < 65536) (rest : List Byte) :
    decode (enc s ++ 0 :: rest) = .ok (s ++ 0 :: (enc s ++ 0 :: rest).drop (s.length + 1)) := by
  have hlen := enc_length s
  rw [decode, decodeLoop_enc hs, except_ok_bind, if_neg (by unfold maxLen; omega)]
  have hz : List.replicate (maxLen - s.length) (0 : Byte) = 0 :: List.replicate (maxLen - s.length - 1) 0 := by
    obtain ⟨k, hk⟩ : ∃ k, maxLen - s.length = k + 1 := ⟨maxLen - s.length - 1, by unfold maxLen; omega⟩
    rw [hk, List.replicate_succ]
    rfl
  have hc := Copy.copyText_ok hs (List.replicate (maxLen - s.length - 1) 0) (enc s ++ 0 :: rest) (by rw [List.length_append]; omega)
  rw [hz, Copy.strcpy, hc, except_ok_bind]
  rw [wr, if_pos (by simp; omega)]
  congr 1
  rw [List.set_append_right _ _ (Nat.le_refl _), Nat.sub_self]
  congr 1
  have : s.length < (enc s ++ 0 :: rest).length := by simp; omega
  rw [List.drop_eq_getElem_cons this]
  rfl

theorem decodeAt_enc (pre : List Byte) {s : List Byte} (hs : Text s) (hl : s.length < 65536) (rest : List Byte) :
    ∃ j, j.length + s.length = (enc s).length ∧ decodeAt (pre ++ (enc s ++ 0 :: rest)) pre.length = .ok (pre ++ (s ++ 0 :: (j ++ rest))) := by
  have hlen := enc_length s
  obtain ⟨j, hj⟩ : ∃ j, (enc s ++ 0 :: rest).drop (s.length + 1) = j ++ rest ∧ j.length + s.length = (enc s).length := by
    refine ⟨(enc s ++ [0]).drop (s.length + 1), ?_, ?_⟩
    · rw [show enc s ++ 0 :: rest = (enc s ++ [0]) ++ rest by simp, List.drop_append_of_le_length (by simp; omega)]
    · simp; omega
  refine ⟨j, hj.2, ?_⟩
  rw [decodeAt, List.drop_left, decode_enc hs hl, except_ok_bind, List.take_left, hj.1]

theorem encoded_scans : ∀ c : Byte, (Unreserved c ∨ c = 0x2b#8 ∨ c = 0x25#8 ∨ HexDigit c) → c ≠ 0 ∧ nameStop c = false ∧ valueStop c = false := by decide +kernel

theorem encoded_chars {e : List Byte} (h : Encoded e) : ∀ c ∈ e, Unreserved c ∨ c = 0x2b#8 ∨ c = 0x25#8 ∨ HexDigit c := by
  induction h with
  | nil => simp
  | plain h _ ih =>
    intro c hc
    rcases List.mem_cons.1 hc with rfl | hc
    · exact .inl h
    · exact ih c hc
  | plus _ ih =>
    intro c hc
    rcases List.mem_cons.1 hc with rfl | hc
    · exact .inr (.inl rfl)
    · exact ih c hc
  | escape h1 h2 _ ih =>
    intro c hc
    simp only [List.mem_cons] at hc
    rcases hc with rfl | rfl | rfl | hc
    · exact .inr (.inr (.inl rfl))
    · exact .inr (.inr (.inr h1))
    · exact .inr (.inr (.inr h2))
    · exact ih c hc

theorem enc_scans (s : List Byte) : ∀ c ∈ enc s, c ≠ 0 ∧ nameStop c = false ∧ valueStop c = false :=
  fun c hc => encoded_scans c (encoded_chars (encoded_enc s) c hc)

theorem enc_plain {s : List Byte} (h : ∀ c ∈ s, Unreserved c ∧ c ≠ 0x20#8) : enc s = s := by
  induction s with
  | nil => rfl
  | cons c s ih =>
    have hc := h c (by simp)
    rw [enc_cons, enc1, if_neg hc.2, if_pos hc.1, ih (fun c h' => h c (List.mem_cons_of_mem _ h'))]
    rfl

/-- What ends a field. -/
def Ends (x : Byte) : Prop := x = 0 ∨ x = 0x26#8

theorem ends_stop {x : Byte} (h : Ends x) : (x = 0 ∨ nameStop x = true) ∧ (x = 0 ∨ valueStop x = true) ∧ x ≠ 0x3d#8 := by
  rcases h with rfl | rfl <;> decide

/-- What happens after a field: the loop ends or goes on. -/
def next {ρ : Type} (F : Reals ρ) (one : ρ) (fuel : Nat) (e : Entry ρ) (x : Byte) (text : List Byte) (p : Nat) : Except Fault (List (Entry ρ) × List Byte) :=
  if x = 0 then .ok ([e], text)
  else do
    let (es, text) ← loop F one fuel text p
    .ok (e :: es, text)

theorem head_not_end {n : List Byte} {x : Byte} {r : List Byte} (hx : x ≠ 0 ∧ Token.isSpace x = false) :
    ∃ c, (enc n ++ x :: r)[0]? = some c ∧ ¬ (c = 0 ∨ Token.isSpace c = true) := by
  cases h : enc n with
  | nil => exact ⟨x, rfl, by rintro (h | h); exacts [hx.1 h, by rw [hx.2] at h; cases h]⟩
  | cons c u =>
    refine ⟨c, rfl, ?_⟩
    have := enc_scans n c (by rw [h]; simp)
    have hv := this.2.2
    unfold valueStop at hv
    simp only [Bool.or_eq_false_iff] at hv
    rintro (h | h); exacts [this.1 h, by rw [hv.2] at h; cases h]

theorem rd_pre (pre : List Byte) (l : List Byte) (k : Nat) : rd (pre ++ l) (pre.length + k) = rd l k := by
  unfold rd
  rw [List.getElem?_append_right (by omega), Nat.add_sub_cancel_left]

theorem rd_mid (s : List Byte) (x : Byte) (r : List Byte) : rd (s ++ x :: r) s.length = .ok x := by simp [rd]

theorem wr_pre (pre s : List Byte) (x : Byte) (r : List Byte) : wr (pre ++ (s ++ x :: r)) (pre.length + s.length) 0 = .ok (pre ++ (s ++ 0 :: r)) := by
  rw [wr, if_pos (by simp), List.set_append_right _ _ (by omega), Nat.add_sub_cancel_left, List.set_append_right _ _ (by omega), Nat.sub_self, List.set_cons_zero]

/-- One round on a field with a value. -/
theorem round_value {ρ : Type} (F : Reals ρ) (one : ρ) (fuel : Nat) (pre : List Byte) {n s : List Byte} (hn : Text n) (hln : n.length < 65536) (hs : Text s) (hls : s.length < 65536)
    {x : Byte} (hx : Ends x) (post : List Byte) :
    ∃ j j2, j.length + n.length = (enc n).length ∧ j2.length + s.length = (enc s).length ∧
      loop F one (fuel + 1) (pre ++ (enc n ++ 0x3d#8 :: (enc s ++ x :: post))) pre.length = (do
        let (v, _) ← parseNumberStrict F (s ++ 0 :: (j2 ++ post))
        next F one fuel ⟨pre.length, match v with | some m => .num m | none => .str (pre.length + (enc n).length + 1)⟩ x
          (pre ++ (n ++ 0 :: (j ++ (s ++ 0 :: (j2 ++ post))))) (pre.length + (enc n).length + 1 + (enc s).length + 1)) := by
  obtain ⟨j, hj, e1⟩ := decodeAt_enc pre hn hln (enc s ++ x :: post)
  have hP : (pre ++ (n ++ 0 :: j)).length = pre.length + (enc n).length + 1 := by simp; omega
  obtain ⟨j2, hj2, e2⟩ := decodeAt_enc (pre ++ (n ++ 0 :: j)) hs hls post
  refine ⟨j, j2, hj, hj2, ?_⟩
  obtain ⟨c0, hc0, hc0'⟩ := head_not_end (n := n) (x := 0x3d#8) (r := enc s ++ x :: post) (by decide)
  have r0 : rd (pre ++ (enc n ++ 0x3d#8 :: (enc s ++ x :: post))) pre.length = .ok c0 := by
    have := rd_pre pre (enc n ++ 0x3d#8 :: (enc s ++ x :: post)) 0
    rw [Nat.add_zero] at this
    rw [this, rd, hc0]
  have s1 := scanTo_ok (stop := nameStop) (s := enc n) (fun c h => ⟨(enc_scans n c h).1, (enc_scans n c h).2.1⟩) (x := 0x3d#8) (by decide) (enc s ++ x :: post)
  have s2 := scanTo_ok (stop := valueStop) (s := enc s) (fun c h => ⟨(enc_scans s c h).1, (enc_scans s c h).2.2⟩) (x := x) (ends_stop hx).2.1 post
  have hsh : pre ++ (n ++ 0 :: (j ++ (enc s ++ x :: post))) = (pre ++ (n ++ 0 :: j)) ++ (enc s ++ x :: post) := by simp
  have hsh2 : ∀ z : List Byte, pre ++ (n ++ 0 :: (j ++ z)) = (pre ++ (n ++ 0 :: j)) ++ z := by intro z; simp
  rw [loop, r0, except_ok_bind, if_neg hc0', List.drop_left, s1, except_ok_bind, rd_pre, rd_mid, except_ok_bind, wr_pre, except_ok_bind, e1, except_ok_bind, if_pos rfl]
  simp only []
  rw [hsh, ← hP, List.drop_left, s2, except_ok_bind, rd_pre, rd_mid, except_ok_bind, wr_pre, except_ok_bind, e2, except_ok_bind, List.drop_left]
  rw [hsh2]
  rfl

/-- One round on a field without a value. -/
theorem round_flag {ρ : Type} (F : Reals ρ) (one : ρ) (fuel : Nat) (pre : List Byte) {n : List Byte} (hn : Text n) (hln : n.length < 65536)
    {x : Byte} (hx : Ends x) (hne : x = 0 → n ≠ []) (post : List Byte) :
    ∃ j, j.length + n.length = (enc n).length ∧
      loop F one (fuel + 1) (pre ++ (enc n ++ x :: post)) pre.length =
        next F one fuel ⟨pre.length, .num { val := .real one, props := .true }⟩ x (pre ++ (n ++ 0 :: (j ++ post))) (pre.length + (enc n).length + 1) := by
  obtain ⟨j, hj, e1⟩ := decodeAt_enc pre hn hln post
  refine ⟨j, hj, ?_⟩
  have : ∃ c, (enc n ++ x :: post)[0]? = some c ∧ ¬ (c = 0 ∨ Token.isSpace c = true) := by
    rcases hx with rfl | rfl
    · obtain ⟨c, n, rfl⟩ : ∃ c t, n = c :: t := by
        cases n with
        | nil => exact absurd rfl (hne rfl)
        | cons c t => exact ⟨c, t, rfl⟩
      have hl := enc_length (c :: n)
      cases h : enc (c :: n) with
      | nil => rw [h] at hl; simp at hl
      | cons d u =>
        refine ⟨d, rfl, ?_⟩
        have := enc_scans (c :: n) d (by rw [h]; simp)
        have hv := this.2.2
        unfold valueStop at hv
        simp only [Bool.or_eq_false_iff] at hv
        rintro (h | h); exacts [this.1 h, by rw [hv.2] at h; cases h]
    · exact head_not_end (by decide)
  obtain ⟨c0, hc0, hc0'⟩ := this
  have r0 : rd (pre ++ (enc n ++ x :: post)) pre.length = .ok c0 := by
    have := rd_pre pre (enc n ++ x :: post) 0
    rw [Nat.add_zero] at this
    rw [this, rd, hc0]
  have s1 := scanTo_ok (stop := nameStop) (s := enc n) (fun c h => ⟨(enc_scans n c h).1, (enc_scans n c h).2.1⟩) (x := x) (ends_stop hx).1 post
  rw [loop, r0, except_ok_bind, if_neg hc0', List.drop_left, s1, except_ok_bind, rd_pre, rd_mid, except_ok_bind, wr_pre, except_ok_bind, e1, except_ok_bind, if_neg (ends_stop hx).2.2]
  rfl

theorem strict_text {ρ : Type} (F : Reals ρ) {s : List Byte} (hs : Text s) (h : NotNumeric s) (r : List Byte) : ∃ k, parseNumberStrict F (s ++ 0 :: r) = .ok (none, k) := by
  by_cases hx : ∃ x ∈ s, ¬ (Chars.isHexDigit x = true ∨ x ∈ [0x2e#8, 0x2b#8, 0x2d#8])
  · obtain ⟨x, h1, h2⟩ := hx
    exact ⟨0, C88_strict_refuses F hs h1 h2 r⟩
  · have hall : ∀ x ∈ s, Chars.isHexDigit x = true ∨ x ∈ [0x2e#8, 0x2b#8, 0x2d#8] := fun x h1 => Classical.byContradiction fun h2 => hx ⟨x, h1, h2⟩
    have honly : onlyNumberChars (s ++ 0 :: r) = .ok true := onlyNumberChars_ok hall r
    have hf : falsePositive (s ++ 0 :: r) = .ok true := by
      rcases h with rfl | h | h | h
      · rfl
      · cases s with
        | nil => cases h
        | cons c s =>
          injection h with h
          subst h
          rfl
      · cases s with
        | nil => cases h
        | cons c s =>
          injection h with h
          subst h
          rfl
      · exact absurd h hx
    refine ⟨1, ?_⟩
    rw [parseNumberStrict, honly, except_ok_bind, if_pos rfl, parseNumber, hf, except_ok_bind, if_pos rfl]

theorem signed_chars (v : Int) : ∀ c ∈ signed 10 v, (Unreserved c ∧ c ≠ 0x20#8 ∧ c ≠ 0) ∧ (Chars.isHexDigit c = true ∨ c ∈ [0x2e#8, 0x2b#8, 0x2d#8]) := by
  have key : ∀ d : Fin 10, (Unreserved (digit false d.val) ∧ digit false d.val ≠ 0x20#8 ∧ digit false d.val ≠ 0) ∧ (Chars.isHexDigit (digit false d.val) = true ∨ digit false d.val ∈ [0x2e#8, 0x2b#8, 0x2d#8]) := by decide +kernel
  intro c hc
  rw [signed_eq] at hc
  rcases List.mem_append.1 hc with hc | hc
  · unfold signOf at hc
    split at hc
    · rw [List.mem_singleton.1 hc]; decide
    · cases hc
  · obtain ⟨d, hd, rfl⟩ := List.mem_map.1 hc
    exact key ⟨d, digits_mem (b := 10) (by omega) _ d hd⟩

theorem strict_int {ρ : Type} (F : Reals ρ) (pf : FloatPrinter) {v : Int} (h1 : -(2 ^ 63) < v) (h2 : v < 2 ^ 63) (r : List Byte) :
    ∃ k, parseNumberStrict F (signed 10 v ++ 0 :: r) = .ok (some { val := .int v }, k) := by
  refine ⟨(signed 10 v).length, ?_⟩
  rw [parseNumberStrict, onlyNumberChars_ok (fun c hc => (signed_chars v c hc).2), except_ok_bind, if_pos rfl]
  exact (C87_decimal_partial F pf h1 h2).2 0 r (by decide)

/-- How a parameter is written. -/
def PVal.spell : PVal → List Byte
  | .text s => 0x3d#8 :: enc s
  | .flag => []
  | .int v => 0x3d#8 :: signed 10 v

def fieldText (p : List Byte × PVal) : List Byte := enc p.1 ++ p.2.spell

/-- How all of them are. -/
def body : List (List Byte × PVal) → List Byte
  | [] => []
  | [p] => fieldText p
  | p :: q :: ps => fieldText p ++ 0x26#8 :: body (q :: ps)

theorem reads_at (pre : List Byte) {s : List Byte} (hs : Text s) (r : List Byte) : Copy.Reads ((pre ++ (s ++ 0 :: r)).drop pre.length) s := by
  rw [List.drop_left]
  exact ⟨hs, r, rfl⟩

theorem round_param {ρ : Type} (F : Reals ρ) (pf : FloatPrinter) (one : ρ) (fuel : Nat) (pre : List Byte) (p : List Byte × PVal) (hn : Text p.1) (hln : p.1.length < 65536) (hv : p.2.Ok)
    {x : Byte} (hx : Ends x) (hne : x = 0 → p ≠ ([], .flag)) (post : List Byte) :
    ∃ mid e, mid.length = (fieldText p).length + 1 ∧
      loop F one (fuel + 1) (pre ++ (fieldText p ++ x :: post)) pre.length = next F one fuel e x (pre ++ (mid ++ post)) (pre.length + mid.length) ∧
      ∀ post', e.Is one (pre ++ (mid ++ post')) p := by
  obtain ⟨n, v⟩ := p
  dsimp only at hn hln hv
  cases v with
  | flag =>
    obtain ⟨j, hj, e⟩ := round_flag F one fuel pre hn hln hx (fun h h' => hne h (by subst h'; rfl)) post
    refine ⟨n ++ 0 :: j, ⟨pre.length, .num { val := .real one, props := .true }⟩, ?_, ?_, fun post' => ⟨?_, rfl⟩⟩
    · simp [fieldText, PVal.spell]; omega
    · rw [fieldText, PVal.spell, List.append_nil, e]
      have h1 : pre.length + (enc n).length + 1 = pre.length + (n ++ 0 :: j).length := by simp; omega
      have h2 : pre ++ (n ++ 0 :: (j ++ post)) = pre ++ (n ++ 0 :: j ++ post) := by simp
      rw [h1, h2]
    · rw [List.append_assoc, List.cons_append]
      exact reads_at pre hn _
  | text s =>
    obtain ⟨hs, hls, hnum⟩ := hv
    obtain ⟨j, j2, hj, hj2, e⟩ := round_value F one fuel pre hn hln hs hls hx post
    obtain ⟨k, hk⟩ := strict_text F hs hnum (j2 ++ post)
    rw [hk, except_ok_bind] at e
    refine ⟨n ++ 0 :: (j ++ (s ++ 0 :: j2)), ⟨pre.length, .str (pre.length + (enc n).length + 1)⟩, ?_, ?_, fun post' => ⟨?_, ?_⟩⟩
    · simp [fieldText, PVal.spell]; omega
    · have h1 : pre.length + (n ++ 0 :: (j ++ (s ++ 0 :: j2))).length = pre.length + (enc n).length + 1 + (enc s).length + 1 := by simp; omega
      have h2 : pre ++ (n ++ 0 :: (j ++ (s ++ 0 :: j2)) ++ post) = pre ++ (n ++ 0 :: (j ++ (s ++ 0 :: (j2 ++ post)))) := by simp
      have h3 : fieldText (n, PVal.text s) ++ x :: post = enc n ++ 0x3d#8 :: (enc s ++ x :: post) := by simp [fieldText, PVal.spell]
      rw [h1, h2, h3, e]
    · rw [List.append_assoc, List.cons_append]
      exact reads_at pre hn _
    · have h1 : pre.length + (enc n).length + 1 = (pre ++ (n ++ 0 :: j)).length := by simp; omega
      have h2 : pre ++ (n ++ 0 :: (j ++ (s ++ 0 :: j2)) ++ post') = (pre ++ (n ++ 0 :: j)) ++ (s ++ 0 :: (j2 ++ post')) := by simp
      rw [h2]
      dsimp only
      rw [h1]
      exact reads_at _ hs _
  | int v =>
    obtain ⟨h1, h2⟩ := hv
    have hc := signed_chars v
    have henc : enc (signed 10 v) = signed 10 v := enc_plain fun c h => ⟨(hc c h).1.1, (hc c h).1.2.1⟩
    obtain ⟨j, j2, hj, hj2, e⟩ := round_value F one fuel pre hn hln (s := signed 10 v) (fun c h => (hc c h).1.2.2) (by have := signed_length h1 h2; omega) hx post
    obtain ⟨k, hk⟩ := strict_int F pf h1 h2 (j2 ++ post)
    rw [hk, except_ok_bind] at e
    refine ⟨n ++ 0 :: (j ++ (signed 10 v ++ 0 :: j2)), ⟨pre.length, .num { val := .int v }⟩, ?_, ?_, fun post' => ⟨?_, rfl⟩⟩
    · rw [henc] at hj2
      simp [fieldText, PVal.spell]; omega
    · have h1 : pre.length + (n ++ 0 :: (j ++ (signed 10 v ++ 0 :: j2))).length = pre.length + (enc n).length + 1 + (enc (signed 10 v)).length + 1 := by simp; omega
      have h2 : pre ++ (n ++ 0 :: (j ++ (signed 10 v ++ 0 :: j2)) ++ post) = pre ++ (n ++ 0 :: (j ++ (signed 10 v ++ 0 :: (j2 ++ post)))) := by simp
      have h3 : fieldText (n, PVal.int v) ++ x :: post = enc n ++ 0x3d#8 :: (enc (signed 10 v) ++ x :: post) := by simp [fieldText, PVal.spell, henc]
      rw [h1, h2, h3, e]
    · rw [List.append_assoc, List.cons_append]
      exact reads_at pre hn _

theorem loop_end {ρ : Type} (F : Reals ρ) (one : ρ) (fuel : Nat) (pre rest : List Byte) : loop F one (fuel + 1) (pre ++ 0 :: rest) pre.length = .ok ([], pre ++ 0 :: rest) := by
  rw [loop, rd_mid, except_ok_bind, if_pos (.inl rfl)]

theorem loop_ok {ρ : Type} (F : Reals ρ) (pf : FloatPrinter) (one : ρ) (ps : List (List Byte × PVal)) (hn : ∀ p ∈ ps, Text p.1 ∧ p.1.length < 65536) (hv : ∀ p ∈ ps, p.2.Ok)
    (hlast : ps.getLast? ≠ some ([], .flag)) (rest : List Byte) (fuel : Nat) (hf : ps.length < fuel) (pre : List Byte) :
    ∃ es t, loop F one fuel (pre ++ (body ps ++ 0 :: rest)) pre.length = .ok (es, pre ++ t) ∧ List.Forall₂ (Entry.Is one (pre ++ t)) es ps := by
  induction ps generalizing fuel pre with
  | nil =>
    obtain ⟨f, rfl⟩ : ∃ f, fuel = f + 1 := ⟨fuel - 1, by simp at hf; omega⟩
    exact ⟨[], 0 :: rest, loop_end F one f pre rest, .nil⟩
  | cons p ps ih =>
    obtain ⟨f, rfl⟩ : ∃ f, fuel = f + 1 := ⟨fuel - 1, by simp at hf; omega⟩
    have hp := hn p (by simp)
    have hpv := hv p (by simp)
    cases ps with
    | nil =>
      obtain ⟨mid, e, -, e2, e3⟩ := round_param F pf one f pre p hp.1 hp.2 hpv (x := 0) (.inl rfl) (fun _ h => hlast (by rw [h]; rfl)) rest
      refine ⟨[e], mid ++ rest, ?_, .cons (e3 rest) .nil⟩
      rw [body, e2, next, if_pos rfl]
    | cons q ps =>
      obtain ⟨mid, e, -, e2, e3⟩ := round_param F pf one f pre p hp.1 hp.2 hpv (x := 0x26#8) (.inr rfl) (fun h => absurd h (by decide)) (body (q :: ps) ++ 0 :: rest)
      obtain ⟨es, t, e4, e5⟩ := ih (fun p h => hn p (List.mem_cons_of_mem _ h)) (fun p h => hv p (List.mem_cons_of_mem _ h)) (by rw [List.getLast?_cons_cons] at hlast; exact hlast)
        f (by simp at hf ⊢; omega) (pre ++ mid)
      refine ⟨e :: es, mid ++ t, ?_, .cons (e3 t) ?_⟩
      · rw [body, List.append_assoc, List.cons_append, e2, next, if_neg (by decide), ← List.append_assoc, ← List.length_append, e4, except_ok_bind, List.append_assoc]
      · rw [← List.append_assoc]; exact e5

/-- How a URI is written. -/
def Doc.text (d : Doc) : List Byte :=
  d.origin.getD [] ++ (if d.origin = none ∧ d.params = [] then [] else 0x3f#8 :: body d.params)

theorem body_length (ps : List (List Byte × PVal)) : ps.length ≤ (body ps).length + 1 := by
  induction ps with
  | nil => simp
  | cons p ps ih =>
    cases ps with
    | nil => simp
    | cons q ps => rw [body]; simp only [List.length_cons, List.length_append] at *; omega

theorem trim_blanks {ws : List Byte} (hw : ∀ c ∈ ws, c ≠ 0 ∧ Token.isSpace c = true) {x : Byte} (hx : x = 0 ∨ Token.isSpace x = false) (r : List Byte) : Token.trim false (ws ++ x :: r) = .ok ws.length := by
  induction ws with
  | nil =>
    rw [List.nil_append, Token.trim, if_neg]
    · rfl
    · rintro ⟨h1, h2, -⟩
      rcases hx with hx | hx
      · exact h1 hx
      · rw [hx] at h2; cases h2
  | cons c ws ih =>
    have hc := hw c (by simp)
    rw [List.cons_append, Token.trim, if_pos ⟨hc.1, hc.2, .inl rfl⟩, ih (fun c h => hw c (List.mem_cons_of_mem _ h))]
    rfl

theorem blank_iff : ∀ c : Byte, Token.isSpace c = true ↔ Token.Blank c := by unfold Token.Blank; decide +kernel

theorem parse_text {ρ : Type} (F : Reals ρ) (pf : FloatPrinter) (one : ρ) {d : Doc} (hd : d.Ok) {ws : List Byte} (hw : ∀ c ∈ ws, Token.Blank c) (rest : List Byte) :
    ∃ r, parse F one (ws ++ (d.text ++ 0 :: rest)) = .ok r ∧ r.Is one d := by
  have hw' : ∀ c ∈ ws, c ≠ 0 ∧ Token.isSpace c = true := by
    have : ∀ c : Byte, Token.Blank c → c ≠ 0 := by unfold Token.Blank; decide +kernel
    exact fun c h => ⟨this c (hw c h), (blank_iff c).2 (hw c h)⟩
  obtain ⟨origin, ps⟩ := d
  have hb := body_length ps
  cases origin with
  | none =>
    cases ps with
    | nil =>
      refine ⟨⟨none, [], ws ++ 0 :: rest⟩, ?_, trivial, .nil⟩
      have : Doc.text ⟨none, []⟩ = [] := rfl
      rw [this, List.nil_append, parse, trim_blanks hw' (.inl rfl), except_ok_bind, rd_mid, except_ok_bind, if_pos rfl]
    | cons p ps =>
      have ht : Doc.text ⟨none, p :: ps⟩ = 0x3f#8 :: body (p :: ps) := by simp [Doc.text]
      have hsh : ws ++ 0x3f#8 :: (body (p :: ps) ++ 0 :: rest) = (ws ++ [0x3f#8]) ++ (body (p :: ps) ++ 0 :: rest) := by simp
      have hln : (ws ++ [0x3f#8]).length = ws.length + 1 := by simp
      obtain ⟨es, t, e, hf⟩ := loop_ok F pf one (p :: ps) hd.names hd.values hd.last rest ((ws ++ 0x3f#8 :: (body (p :: ps) ++ 0 :: rest)).length + 1)
        (by simp only [List.length_append, List.length_cons] at *; omega) (ws ++ [0x3f#8])
      refine ⟨⟨none, es, _⟩, ?_, trivial, hf⟩
      rw [ht, List.cons_append, parse, trim_blanks hw' (.inr (by decide)), except_ok_bind, rd_mid, except_ok_bind, if_neg (by decide), if_neg (by decide), ← hln]
      rw [← hsh] at e
      rw [e, except_ok_bind]
  | some s =>
    obtain ⟨h0, hl, hc⟩ := hd.origin s rfl
    have ht : Doc.text ⟨some s, ps⟩ = s ++ 0x3f#8 :: body ps := by simp [Doc.text]
    have hstop : ∀ c ∈ s, c ≠ 0 ∧ originStop c = false := by
      intro c h
      obtain ⟨a1, a2, a3, a4⟩ := hc c h
      refine ⟨a1, ?_⟩
      rw [originStop, Bool.or_eq_false_iff]
      refine ⟨by simpa using a2, ?_⟩
      cases hb : Token.isSpace c with
      | false => rfl
      | true => exact absurd ((blank_iff c).1 hb) a4
    obtain ⟨c, s', rfl⟩ : ∃ c t, s = c :: t := by
      cases s with
      | nil => exact absurd rfl h0
      | cons c t => exact ⟨c, t, rfl⟩
    have hcc := hc c (by simp)
    have hcs := hstop c (by simp)
    rw [originStop, Bool.or_eq_false_iff] at hcs
    generalize hS : c :: s' = s at *
    have hsh : ws ++ (s ++ 0 :: (body ps ++ 0 :: rest)) = (ws ++ (s ++ [0])) ++ (body ps ++ 0 :: rest) := by simp
    have hln : (ws ++ (s ++ [0])).length = ws.length + s.length + 1 := by simp; omega
    obtain ⟨es, t, e, hf⟩ := loop_ok F pf one ps hd.names hd.values hd.last rest ((ws ++ (s ++ 0 :: (body ps ++ 0 :: rest))).length + 1)
      (by simp only [List.length_append, List.length_cons] at *; omega) (ws ++ (s ++ [0]))
    refine ⟨⟨some ws.length, es, _⟩, ?_, ?_, hf⟩
    · rw [ht, List.append_assoc, List.cons_append]
      have htrim : Token.trim false (ws ++ (s ++ 0x3f#8 :: (body ps ++ 0 :: rest))) = .ok ws.length := by
        rw [← hS, List.cons_append]; exact trim_blanks hw' (.inr hcs.2.2) _
      have hrd : rd (ws ++ (s ++ 0x3f#8 :: (body ps ++ 0 :: rest))) ws.length = .ok c := by
        rw [← hS, List.cons_append]; exact rd_mid _ _ _
      rw [parse, htrim, except_ok_bind, hrd, except_ok_bind, if_neg hcc.1, if_pos hcc.2.1, List.drop_left, scanTo_ok hstop (by decide), except_ok_bind, rd_pre, rd_mid, except_ok_bind,
        wr_pre, except_ok_bind, if_neg (by decide), ← hln]
      rw [← hsh] at e
      rw [e, except_ok_bind]
    · dsimp only
      have : (ws ++ (s ++ [0])) ++ t = ws ++ (s ++ 0 :: t) := by simp
      rw [this]
      exact reads_at ws (fun c h => (hc c h).1) _

/-! ### Writing -/

theorem printStr_ok (pf : FloatPrinter) {o : Out} (ho : o.Ok) {s : List Byte} (hs : Text s) : Appends o (enc s) (printStr pf o (s ++ [0])) :=
  printLoop_ok pf hs [] ⟨rfl, rfl⟩ ho

theorem writeValue_ok {ρ : Type} (F : Reals ρ) (pf : FloatPrinter) (one : ρ) {o : Out} (ho : o.Ok) {v : PVal} (hv : v.Ok) : Appends o v.spell (writeValue F pf o (v.content one)) := by
  have hc : ∀ {o : Out}, o.Ok → Appends o [0x3d#8] (fprintf pf o [0x25#8, 0x63#8, 0] [.int 0x3d#32]) := fun ho => fprintf_c pf ho (c := 0x3d#32) (by decide) []
  cases v with
  | flag => exact Appends.pure ho
  | text s => exact Appends.bind (hc ho) fun o' ho' => printStr_ok pf ho' hv.1
  | int v => exact Appends.bind (hc ho) fun o' ho' => (C87_decimal_partial F pf hv.1 hv.2).1 o' ho'

theorem writeNodes_ok {ρ : Type} (F : Reals ρ) (pf : FloatPrinter) (one : ρ) (ps : List (List Byte × PVal)) (hn : ∀ p ∈ ps, Text p.1) (hv : ∀ p ∈ ps, p.2.Ok) (og : Option Nat) (i count : Nat)
    (hog : ∀ k, og = some k → k < i) (hcount : i + ps.length = count) {o : Out} (ho : o.Ok) :
    Appends o (body ps) (writeNodes F pf og count i (ps.map fun p => ⟨p.1, p.2.content one⟩) o) := by
  induction ps generalizing i o with
  | nil => exact Appends.pure ho
  | cons p ps ih =>
    have hne : ¬ og = some i := fun h => by have := hog i h; omega
    rw [List.map_cons, writeNodes, if_neg hne]
    cases ps with
    | nil =>
      rw [body, fieldText, ← List.append_nil (enc p.1 ++ _), List.append_assoc]
      refine Appends.bind (printStr_ok pf ho (hn p (by simp))) fun o1 h1 => Appends.bind (writeValue_ok F pf one h1 (hv p (by simp))) fun o2 h2 => ?_
      rw [if_neg (by simp at hcount; omega)]
      exact Appends.pure h2
    | cons q ps =>
      have hb : body (p :: q :: ps) = enc p.1 ++ (p.2.spell ++ ([0x26#8] ++ body (q :: ps))) := by simp [body, fieldText]
      rw [hb]
      refine Appends.bind (printStr_ok pf ho (hn p (by simp))) fun o1 h1 => Appends.bind (writeValue_ok F pf one h1 (hv p (by simp))) fun o2 h2 => ?_
      rw [if_pos (by simp at hcount; omega)]
      refine Appends.bind (fprintf_s pf h2 (s := [0x26#8]) (by unfold Text; decide) [] [] (by decide)) fun o3 h3 => ?_
      exact ih (fun p h => hn p (List.mem_cons_of_mem _ h)) (fun p h => hv p (List.mem_cons_of_mem _ h)) (i + 1) (fun k h => by have := hog k h; omega) (by simp at hcount ⊢; omega) h3

theorem write_text {ρ : Type} (F : Reals ρ) (pf : FloatPrinter) (one : ρ) {d : Doc} (hd : d.Ok) {o : Out} (ho : o.Ok) : Appends o d.text (write F pf (d.nodes one) o) := by
  obtain ⟨origin, ps⟩ := d
  have hn : ∀ p ∈ ps, Text p.1 := fun p h => (hd.names p h).1
  have hq : ∀ {o : Out}, o.Ok → Appends o [0x3f#8] (fprintf pf o [0x25#8, 0x73#8, 0] [.str (some [0x3f#8, 0])]) :=
    fun ho => fprintf_s pf ho (s := [0x3f#8]) (by unfold Text; decide) [] [] (by decide)
  cases origin with
  | none =>
    have hnodes : Doc.nodes one ⟨none, ps⟩ = ps.map fun p => ⟨p.1, p.2.content one⟩ := rfl
    have hidx : originIndex (Doc.nodes one ⟨none, ps⟩) = none := by
      rw [hnodes, originIndex, List.findIdx?_eq_none_iff]
      intro n hn'
      obtain ⟨p, hp, rfl⟩ := List.mem_map.1 hn'
      simpa using hd.noOrigin rfl p hp
    rw [write, writeOrigin, hidx]
    dsimp only [Option.bind_none]
    rw [except_ok_bind]
    cases ps with
    | nil => exact Appends.pure ho
    | cons p ps =>
      have ht : Doc.text ⟨none, p :: ps⟩ = [0x3f#8] ++ body (p :: ps) := by simp [Doc.text]
      rw [ht, if_pos (by rw [hnodes]; simp), hnodes]
      exact Appends.bind (hq ho) fun o1 h1 => writeNodes_ok F pf one (p :: ps) hn hd.values none 0 _ (by simp) (by simp) h1
  | some s =>
    obtain ⟨h0, hl, hc⟩ := hd.origin s rfl
    have hnodes : Doc.nodes one ⟨some s, ps⟩ = ⟨originName, .str s⟩ :: ps.map fun p => ⟨p.1, p.2.content one⟩ := rfl
    have hidx : originIndex (Doc.nodes one ⟨some s, ps⟩) = some 0 := by
      rw [hnodes, originIndex, List.findIdx?_cons]
      simp
    have ht : Doc.text ⟨some s, ps⟩ = s ++ ([0x3f#8] ++ body ps) := by simp [Doc.text]
    rw [write, writeOrigin, hidx, ht, hnodes]
    dsimp only [Option.bind_some, List.getElem?_cons_zero]
    refine Appends.bind (fprintf_lit pf ho (fun c h => ⟨(hc c h).1, (hc c h).2.2.1⟩) [] [] (by unfold maxLen; omega)) fun o1 h1 => ?_
    rw [if_pos (by simp)]
    refine Appends.bind (hq h1) fun o2 h2 => ?_
    rw [writeNodes, if_pos rfl]
    exact writeNodes_ok F pf one ps hn hd.values (some 0) 1 _ (fun k h => by injection h with h; omega) (by simp; omega) h2

/-! ## C113 -/

/-- **C113.** What is written for a URI is read again as the same URI: the origin, and all parameters in their order with their names and values.  Blanks before it are
skipped, and what follows the terminator does not matter.

`_partial`: for the URIs that are `Ok`; the theorems below show what becomes of others. -/
theorem C113_round_trip_partial {ρ : Type} (F : Reals ρ) (pf : FloatPrinter) (one : ρ) {d : Doc} (hd : d.Ok) {o : Out} (ho : o.Ok) :
    ∃ o' e, write F pf (d.nodes one) o = .ok o' ∧ o'.out = o.out ++ e ∧
      ∀ ws rest, (∀ c ∈ ws, Token.Blank c) → ∃ r, parse F one (ws ++ (e ++ 0 :: rest)) = .ok r ∧ r.Is one d := by
  obtain ⟨o', e, -, h⟩ := write_text F pf one hd ho
  exact ⟨o', d.text, e, h, fun ws rest hw => parse_text F pf one hd hw rest⟩

/-- A field as RFC 3986 and the rules for forms have it: an encoded name, and an encoded value after an equals sign. -/
def Field (f : List Byte) : Prop := Encoded f ∨ ∃ a b, Encoded a ∧ Encoded b ∧ f = a ++ 0x3d#8 :: b

/-- **C113.** What is written is the origin as it is, a question mark, and one field for each parameter, separated by ampersands. -/
theorem C113_syntax {ρ : Type} (F : Reals ρ) (pf : FloatPrinter) (one : ρ) {d : Doc} (hd : d.Ok) {o : Out} (ho : o.Ok) :
    ∃ o' fs, write F pf (d.nodes one) o = .ok o' ∧ fs.length = d.params.length ∧ (∀ f ∈ fs, Field f) ∧
      o'.out = o.out ++ (d.origin.getD [] ++ if d.origin = none ∧ d.params = [] then [] else 0x3f#8 :: [0x26#8].intercalate fs) := by
  obtain ⟨o', e, -, h⟩ := write_text F pf one hd ho
  refine ⟨o', d.params.map fieldText, e, by simp, ?_, ?_⟩
  · intro f hf
    obtain ⟨⟨n, v⟩, hp, rfl⟩ := List.mem_map.1 hf
    cases v with
    | flag => exact .inl (by rw [fieldText, PVal.spell, List.append_nil]; exact encoded_enc _)
    | text s => exact .inr ⟨_, _, encoded_enc _, encoded_enc s, rfl⟩
    | int v =>
      have henc : enc (signed 10 v) = signed 10 v := enc_plain fun c h => ⟨(signed_chars v c h).1.1, (signed_chars v c h).1.2.1⟩
      exact .inr ⟨_, _, encoded_enc _, by rw [← henc]; exact encoded_enc _, rfl⟩
  · rw [h, Doc.text]
    have hb : ∀ ps : List (List Byte × PVal), body ps = [0x26#8].intercalate (ps.map fieldText) := by
      intro ps
      induction ps with
      | nil => rfl
      | cons p ps ih =>
        cases ps with
        | nil => simp [body, List.intercalate]
        | cons q ps => rw [body, ih]; simp [List.intercalate]
    rw [hb]

/-! ### What does not survive -/

/-- A URI with no origin and one text. -/
theorem single {ρ : Type} (F : Reals ρ) (pf : FloatPrinter) (one : ρ) {n s : List Byte} (hn : Text n) (hln : n.length < 65536) (hno : n ≠ originName) (hs : Text s) (hls : s.length < 65536)
    {o : Out} (ho : o.Ok) :
    ∃ o' e, write F pf [⟨n, .str s⟩] o = .ok o' ∧ o'.out = o.out ++ e ∧ ∀ rest, ∃ j t, parse F one (e ++ 0 :: rest) = (do
      let (v, _) ← parseNumberStrict F (s ++ 0 :: j)
      .ok ⟨none, [⟨1, match v with | some m => .num m | none => .str ((enc n).length + 2)⟩], t⟩) := by
  have hw : Appends o ([0x3f#8] ++ (enc n ++ ([0x3d#8] ++ enc s))) (write F pf [⟨n, .str s⟩] o) := by
    have hidx : originIndex [(⟨n, .str s⟩ : Node ρ)] = none := by
      rw [originIndex, List.findIdx?_cons]; simp [hno]
    rw [write, writeOrigin, hidx]
    dsimp only [Option.bind_none]
    rw [except_ok_bind, if_pos (by simp)]
    refine Appends.bind (fprintf_s pf ho (s := [0x3f#8]) (by unfold Text; decide) [] [] (by decide)) fun o1 h1 => ?_
    rw [writeNodes, if_neg (by simp), ← List.append_nil ([0x3d#8] ++ enc s)]
    refine Appends.bind (printStr_ok pf h1 hn) fun o2 h2 => ?_
    refine Appends.bind (Appends.bind (fprintf_c pf h2 (c := 0x3d#32) (by decide) []) fun o' ho' => printStr_ok pf ho' hs) fun o3 h3 => ?_
    rw [if_neg (by simp)]
    exact Appends.pure h3
  obtain ⟨o', e, -, h⟩ := hw
  refine ⟨o', _, e, h, fun rest => ?_⟩
  have hsh : ([0x3f#8] ++ (enc n ++ ([0x3d#8] ++ enc s))) ++ 0 :: rest = [0x3f#8] ++ (enc n ++ 0x3d#8 :: (enc s ++ 0 :: rest)) := by simp
  obtain ⟨j, j2, -, -, e2⟩ := round_value F one ([0x3f#8] ++ (enc n ++ 0x3d#8 :: (enc s ++ 0 :: rest))).length [0x3f#8] hn hln hs hls (x := 0) (.inl rfl) rest
  refine ⟨j2 ++ rest, [0x3f#8] ++ (n ++ 0 :: (j ++ (s ++ 0 :: (j2 ++ rest)))), ?_⟩
  rw [hsh, parse, List.singleton_append, Token.trim, if_neg (by decide), except_ok_bind, Print.rd_cons, except_ok_bind, if_neg (by decide), if_neg (by decide)]
  rw [← List.singleton_append, show 0 + 1 = [0x3f#8].length from rfl, e2]
  cases hq : parseNumberStrict F (s ++ 0 :: (j2 ++ rest)) with
  | error f => rfl
  | ok v =>
    obtain ⟨v, k⟩ := v
    rw [except_ok_bind, except_ok_bind]
    dsimp only
    rw [next, if_pos rfl, except_ok_bind]
    congr 5
    cases v with
    | none => simp; omega
    | some m => rfl

/-- What is read for the only parameter. -/
def OneNumber {ρ : Type} (r : Parsed ρ) (v : Int) : Prop := ∃ e m, r.params = [e] ∧ e.value = .num m ∧ m.val = .int v

/-- **C113 fails** for texts that begin with a number and go on with more of the characters of numbers, such as the date `2024-01-15`: only the number before the dash is left. -/
theorem C113_dates_cut {ρ : Type} (F : Reals ρ) (pf : FloatPrinter) (one : ρ) {n : List Byte} (hn : Text n) (hln : n.length < 65536) (hno : n ≠ originName)
    {ds : List Nat} (hds : ∀ d ∈ ds, d < 10) (hne : ds ≠ []) (hv : Zpl.Num.value 10 ds < 2 ^ 63) (hl : ds.length ≤ 46) {u : List Byte}
    (hu : ∀ c ∈ u, Chars.isDigit c = true ∨ c = 0x2d#8) (hlu : u.length < 65000) {o : Out} (ho : o.Ok) :
    ∃ o' e, write F pf [⟨n, .str (decimal ds ++ 0x2d#8 :: u)⟩] o = .ok o' ∧ o'.out = o.out ++ e ∧
      ∀ rest, ∃ r, parse F one (e ++ 0 :: rest) = .ok r ∧ OneNumber r (Zpl.Num.value 10 ds) := by
  have kd : ∀ d : Fin 10, digit false d.val ≠ 0 ∧ Chars.isHexDigit (digit false d.val) = true := by decide +kernel
  have ku : ∀ c : Byte, (Chars.isDigit c = true ∨ c = 0x2d#8) → c ≠ 0 ∧ (Chars.isHexDigit c = true ∨ c ∈ [0x2e#8, 0x2b#8, 0x2d#8]) := by decide +kernel
  have hall : ∀ c ∈ decimal ds ++ 0x2d#8 :: u, c ≠ 0 ∧ (Chars.isHexDigit c = true ∨ c ∈ [0x2e#8, 0x2b#8, 0x2d#8]) := by
    intro c hc
    rcases List.mem_append.1 hc with hc | hc
    · obtain ⟨d, hd, rfl⟩ := List.mem_map.1 hc
      exact ⟨(kd ⟨d, hds d hd⟩).1, .inl (kd ⟨d, hds d hd⟩).2⟩
    · rcases List.mem_cons.1 hc with rfl | hc
      · decide
      · exact ku c (hu c hc)
  have hlen : (decimal ds ++ 0x2d#8 :: u).length < 65536 := by simp [decimal]; omega
  obtain ⟨o', e, e1, e2, e3⟩ := single F pf one hn hln hno (fun c h => (hall c h).1) hlen ho
  refine ⟨o', e, e1, e2, fun rest => ?_⟩
  obtain ⟨j, t, h⟩ := e3 rest
  obtain ⟨m, hm, hmv, -⟩ := C88_decimal_partial F .none hds hne hv hl (c := 0x2d#8) (by decide) (u ++ 0 :: j)
  have hstrict : ∃ k, parseNumberStrict F (decimal ds ++ 0x2d#8 :: u ++ 0 :: j) = .ok (some m, k) := by
    refine ⟨Sign.none.text.length + ds.length, ?_⟩
    rw [parseNumberStrict, onlyNumberChars_ok (fun c hc => (hall c hc).2), except_ok_bind, if_pos rfl, List.append_assoc, List.cons_append]
    exact hm
  obtain ⟨k, hk⟩ := hstrict
  rw [hk, except_ok_bind] at h
  exact ⟨_, h, _, m, rfl, rfl, hmv⟩

/-- **C113 fails** for words of the letters `a` to `f` that do not begin with `e`, such as `bad` or `cafe`: they come back as the number zero. -/
theorem C113_words_become_zero {ρ : Type} (F : Reals ρ) (pf : FloatPrinter) (one : ρ) {n : List Byte} (hn : Text n) (hln : n.length < 65536) (hno : n ≠ originName)
    {u : List Byte} (hu : ∀ x ∈ u, Chars.isHexDigit x = true ∧ Chars.isDigit x = false) (hne : u ≠ []) (he : u.head? ≠ some 0x65#8 ∧ u.head? ≠ some 0x45#8) (hl : u.length ≤ 47)
    {o : Out} (ho : o.Ok) :
    ∃ o' e, write F pf [⟨n, .str u⟩] o = .ok o' ∧ o'.out = o.out ++ e ∧ ∀ rest, ∃ r, parse F one (e ++ 0 :: rest) = .ok r ∧ OneNumber r 0 := by
  have k0 : ∀ c : Byte, Chars.isHexDigit c = true → c ≠ 0 := by decide +kernel
  obtain ⟨o', e, e1, e2, e3⟩ := single F pf one hn hln hno (fun c h => k0 c (hu c h).1) (by omega) ho
  refine ⟨o', e, e1, e2, fun rest => ?_⟩
  obtain ⟨j, t, h⟩ := e3 rest
  obtain ⟨m, hm, hmv⟩ := C88_words_are_zero F hu hne he hl (c := 0) (by decide) j
  rw [parseNumberStrict, onlyNumberChars_ok (fun c hc => .inl (hu c hc).1), except_ok_bind, if_pos rfl, hm, except_ok_bind] at h
  exact ⟨_, h, _, m, rfl, rfl, hmv⟩

/-- **C113 fails** for texts of 48 or more digits: reading what was written for them overruns an array on the stack. -/
theorem C113_long_digits_overrun {ρ : Type} (F : Reals ρ) (pf : FloatPrinter) (one : ρ) {n : List Byte} (hn : Text n) (hln : n.length < 65536) (hno : n ≠ originName)
    {ds : List Nat} (hds : ∀ d ∈ ds, d < 10) (hl : 48 ≤ ds.length) (hl2 : ds.length < 65536) {o : Out} (ho : o.Ok) :
    ∃ o' e, write F pf [⟨n, .str (decimal ds)⟩] o = .ok o' ∧ o'.out = o.out ++ e ∧ ∀ rest, parse F one (e ++ 0 :: rest) = .error .oob := by
  have kd : ∀ d : Fin 10, digit false d.val ≠ 0 ∧ Chars.isHexDigit (digit false d.val) = true := by decide +kernel
  have hall : ∀ c ∈ decimal ds, c ≠ 0 ∧ Chars.isHexDigit c = true := by
    intro c hc
    obtain ⟨d, hd, rfl⟩ := List.mem_map.1 hc
    exact kd ⟨d, hds d hd⟩
  obtain ⟨o', e, e1, e2, e3⟩ := single F pf one hn hln hno (fun c h => (hall c h).1) (by simpa [decimal] using hl2) ho
  refine ⟨o', e, e1, e2, fun rest => ?_⟩
  obtain ⟨j, t, h⟩ := e3 rest
  have hm : parseNumber F (decimal ds ++ 0 :: j) = .error .oob := C88_long_number_overruns F .none hds hl (c := 0) (by decide) j
  rw [parseNumberStrict, onlyNumberChars_ok (fun c hc => .inl (hall c hc).2), except_ok_bind, if_pos rfl, hm] at h
  exact h

theorem go_missing (pf : FloatPrinter) (fuel : Nat) {pre : List Byte} (hp : Literal pre) {c : Byte} (hc : c = 0x73#8 ∨ c = 0x63#8 ∨ c = 0x64#8) (post : List Byte) (text : List Byte) (rem : Nat) (hr : rem ≠ 0)
    (hl : pre.length ≤ text.length) : go pf (fuel + 1) (pre ++ 0x25#8 :: c :: post) [] text rem = .error .ub := by
  have h0 : ∃ x, rd (pre ++ 0x25#8 :: c :: post) 0 = .ok x ∧ x ≠ 0 := by
    cases pre with
    | nil => exact ⟨0x25#8, rfl, by decide⟩
    | cons x pre => exact ⟨x, rfl, (hp x (by simp)).1⟩
  obtain ⟨x, hx, hx0⟩ := h0
  rw [go, hx, except_ok_bind, if_neg hx0, if_pos hr, literal_ok hp (.inr rfl) _ _ hl, except_ok_bind]
  dsimp only
  rw [List.drop_left]
  rcases hc with rfl | rfl | rfl <;> rfl

/-- **C113 fails** for origins with escapes that begin with `c`, `d` or `s`, such as `%c3%a9`, the usual way to write `é`: the origin is taken for a format, and the arguments
it asks for do not exist. -/
theorem C113_origin_is_a_format {ρ : Type} (F : Reals ρ) (pf : FloatPrinter) {pre : List Byte} (hp : Literal pre) (hl : pre.length < 65536) {c : Byte}
    (hc : c = 0x73#8 ∨ c = 0x63#8 ∨ c = 0x64#8) (post : List Byte) (ns : List (Node ρ)) {o : Out} (ho : o.Ok) :
    write F pf (⟨originName, .str (pre ++ 0x25#8 :: c :: post)⟩ :: ns) o = .error .ub := by
  have hidx : originIndex ((⟨originName, .str (pre ++ 0x25#8 :: c :: post)⟩ : Node ρ) :: ns) = some 0 := by
    rw [originIndex, List.findIdx?_cons]; simp
  rw [write, writeOrigin, hidx]
  dsimp only [Option.bind_some, List.getElem?_cons_zero]
  have : fprintf pf o (pre ++ 0x25#8 :: c :: post ++ [0]) [] = .error .ub := by
    rw [fprintf, snprintf, List.append_assoc, List.cons_append, List.cons_append, go_missing pf _ hp hc _ _ _ (by decide) (by rw [ho.1]; unfold maxLen; omega)]
    rfl
  rw [this]
  rfl

/-- **C113 fails** for hexadecimal numbers: they come back as texts. -/
theorem C113_hex_becomes_text {ρ : Type} (F : Reals ρ) (pf : FloatPrinter) (one : ρ) {n : List Byte} (hn : Text n) (hln : n.length < 65536) (hno : n ≠ originName)
    {k : Nat} (hk : k < 2 ^ 63) {o : Out} (ho : o.Ok) :
    ∃ o' e, write F pf [⟨n, .num { val := .int k, props := .isHex }⟩] o = .ok o' ∧ o'.out = o.out ++ e ∧
      ∀ rest, ∃ r b, parse F one (e ++ 0 :: rest) = .ok r ∧ r.params = [⟨1, .str b⟩] ∧ Copy.Reads (r.text.drop b) (0x30#8 :: 0x78#8 :: numeral false 16 k) := by
  have kd : ∀ d : Fin 16, Unreserved (digit false d.val) ∧ digit false d.val ≠ 0x20#8 ∧ digit false d.val ≠ 0 := by decide +kernel
  have hc : ∀ c ∈ 0x30#8 :: 0x78#8 :: numeral false 16 k, Unreserved c ∧ c ≠ 0x20#8 ∧ c ≠ 0 := by
    intro c hc
    simp only [List.mem_cons] at hc
    rcases hc with rfl | rfl | hc
    · decide
    · decide
    · obtain ⟨d, hd, rfl⟩ := List.mem_map.1 hc
      exact kd ⟨d, digits_mem (b := 16) (by omega) _ d hd⟩
  have hl : (0x30#8 :: 0x78#8 :: numeral false 16 k).length < 65536 := by
    have := hex_length (n := k) (by omega)
    simp only [List.length_cons]; omega
  have henc : enc (0x30#8 :: 0x78#8 :: numeral false 16 k) = 0x30#8 :: 0x78#8 :: numeral false 16 k := enc_plain fun c h => ⟨(hc c h).1, (hc c h).2.1⟩
  have hx : NotNumeric (0x30#8 :: 0x78#8 :: numeral false 16 k) := .inr (.inr (.inr ⟨0x78#8, by simp, by decide⟩))
  generalize hS : 0x30#8 :: 0x78#8 :: numeral false 16 k = s at *
  have hw : Appends o (0x3f#8 :: (fieldText (n, .text s))) (write F pf [⟨n, .num { val := .int k, props := .isHex }⟩] o) := by
    have hidx : originIndex [(⟨n, .num { val := .int k, props := .isHex }⟩ : Node ρ)] = none := by
      rw [originIndex, List.findIdx?_cons]; simp [hno]
    have hb : 0x3f#8 :: (fieldText (n, .text s)) = [0x3f#8] ++ (enc n ++ (([0x3d#8] ++ s) ++ [])) := by simp [fieldText, PVal.spell, henc]
    rw [hb, write, writeOrigin, hidx]
    dsimp only [Option.bind_none]
    rw [except_ok_bind, if_pos (by simp)]
    refine Appends.bind (fprintf_s pf ho (s := [0x3f#8]) (by unfold Text; decide) [] [] (by decide)) fun o1 h1 => ?_
    rw [writeNodes, if_neg (by simp)]
    refine Appends.bind (printStr_ok pf h1 hn) fun o2 h2 => ?_
    refine Appends.bind ?_ fun o3 h3 => ?_
    · rw [writeValue, if_pos (by simp)]
      refine Appends.bind (fprintf_c pf h2 (c := 0x3d#32) (by decide) []) fun o' ho' => ?_
      rw [← hS]
      exact (C87_hex_partial F pf hk).1 o' ho'
    · rw [if_neg (by simp)]
      exact Appends.pure h3
  obtain ⟨o', e, -, h⟩ := hw
  refine ⟨o', _, e, h, fun rest => ?_⟩
  have hd : Doc.Ok ⟨none, [(n, .text s)]⟩ := ⟨by simp, by simpa using ⟨hn, hln⟩, by simpa using ⟨fun c h => (hc c h).2.2, hl, hx⟩, by simpa using hno, by simp⟩
  have hp := parse_text F pf one hd (ws := []) (by simp) rest
  have ht : Doc.text ⟨none, [(n, .text s)]⟩ = 0x3f#8 :: fieldText (n, .text s) := by simp [Doc.text, body]
  obtain ⟨r, hr, hr1, hr2⟩ := hp
  rw [ht] at hr
  obtain ⟨j, j2, -, -, e2⟩ := round_value F one ([0x3f#8] ++ (enc n ++ 0x3d#8 :: (enc s ++ 0 :: rest))).length [0x3f#8] hn hln (s := s) (fun c h => (hc c h).2.2) hl (x := 0) (.inl rfl) rest
  obtain ⟨kk, hkk⟩ := strict_text F (fun c h => (hc c h).2.2) hx (j2 ++ rest)
  rw [hkk, except_ok_bind] at e2
  dsimp only at e2
  have hr' : parse F one (0x3f#8 :: fieldText (n, .text s) ++ 0 :: rest) =
      .ok ⟨none, [⟨1, .str (1 + (enc n).length + 1)⟩], [0x3f#8] ++ (n ++ 0 :: (j ++ (s ++ 0 :: (j2 ++ rest))))⟩ := by
    have hsh : 0x3f#8 :: fieldText (n, .text s) ++ 0 :: rest = [0x3f#8] ++ (enc n ++ 0x3d#8 :: (enc s ++ 0 :: rest)) := by simp [fieldText, PVal.spell]
    rw [hsh, parse, List.singleton_append, Token.trim, if_neg (by decide), except_ok_bind, Print.rd_cons, except_ok_bind, if_neg (by decide), if_neg (by decide)]
    rw [← List.singleton_append, show 0 + 1 = [0x3f#8].length from rfl, e2, next, if_pos rfl, except_ok_bind]
    rfl
  rw [List.nil_append, hr'] at hr
  injection hr with hr
  subst hr
  refine ⟨_, _, hr', rfl, ?_⟩
  cases hr2 with
  | cons h1 _ => exact h1.2

/-- **C113 fails** for a last parameter that is a flag without a name: it is lost. -/
theorem C113_empty_flag_lost {ρ : Type} (F : Reals ρ) (pf : FloatPrinter) (one : ρ) (s : List Byte) (hd : Doc.Ok ⟨some s, []⟩) {o : Out} (ho : o.Ok) :
    ∃ o' e, write F pf (Doc.nodes one ⟨some s, [([], .flag)]⟩) o = .ok o' ∧ o'.out = o.out ++ e ∧
      ∀ rest, ∃ r, parse F one (e ++ 0 :: rest) = .ok r ∧ r.Is one ⟨some s, []⟩ := by
  obtain ⟨h0, hl, hc⟩ := hd.origin s rfl
  have hw : Appends o (Doc.text ⟨some s, []⟩) (write F pf (Doc.nodes one ⟨some s, [([], .flag)]⟩) o) := by
    have hidx : originIndex (Doc.nodes one ⟨some s, [([], .flag)]⟩) = some 0 := by
      rw [Doc.nodes, originIndex, Option.map_some, Option.toList_some, List.singleton_append, List.findIdx?_cons]; simp
    have hnodes : Doc.nodes one ⟨some s, [([], .flag)]⟩ = [⟨originName, .str s⟩, ⟨[], PVal.flag.content one⟩] := rfl
    have ht : Doc.text ⟨some s, []⟩ = s ++ ([0x3f#8] ++ []) := by simp [Doc.text, body]
    rw [write, writeOrigin, hidx, ht, hnodes]
    dsimp only [Option.bind_some, List.getElem?_cons_zero]
    refine Appends.bind (fprintf_lit pf ho (fun c h => ⟨(hc c h).1, (hc c h).2.2.1⟩) [] [] (by unfold maxLen; omega)) fun o1 h1 => ?_
    rw [if_pos (by simp)]
    refine Appends.bind (fprintf_s pf h1 (s := [0x3f#8]) (by unfold Text; decide) [] [] (by decide)) fun o2 h2 => ?_
    rw [writeNodes, if_pos rfl]
    have := writeNodes_ok F pf one [([], PVal.flag)] (by simp [Text]) (by simp [PVal.Ok]) (some 0) 1 2 (fun k h => by injection h with h; omega) rfl h2
    exact this
  obtain ⟨o', e, -, h⟩ := hw
  exact ⟨o', _, e, h, fun rest => parse_text F pf one hd (ws := []) (by simp) rest⟩

/-- **C113 fails** for texts that are not the work of `zpl_uri_write`: a `%` at the end of a name reads behind the terminator. -/
theorem C113_cut_escape {ρ : Type} (F : Reals ρ) (one : ρ) {s : List Byte} (hs : ∀ c ∈ s, c ≠ 0 ∧ c ≠ 0x25#8 ∧ nameStop c = false) :
    parse F one (0x3f#8 :: (s ++ [0x25#8, 0])) = .error .oob := by
  have hscan := scanTo_ok (stop := nameStop) (s := s ++ [0x25#8]) (by
    intro c hc
    rcases List.mem_append.1 hc with hc | hc
    · exact ⟨(hs c hc).1, (hs c hc).2.2⟩
    · rw [List.mem_singleton.1 hc]; decide) (x := 0) (.inl rfl) []
  have hw := wr_pre [0x3f#8] (s ++ [0x25#8]) 0 []
  have hsh : [0x3f#8] ++ ((s ++ [0x25#8]) ++ [0]) = 0x3f#8 :: (s ++ [0x25#8, 0]) := by simp
  have hsh2 : ((s ++ [0x25#8]) ++ [0]) = s ++ [0x25#8, 0] := by simp
  have h0 : ∃ c, rd ([0x3f#8] ++ ((s ++ [0x25#8]) ++ [0])) 1 = .ok c ∧ ¬ (c = 0 ∨ Token.isSpace c = true) := by
    cases s with
    | nil => exact ⟨0x25#8, rfl, by decide⟩
    | cons c s =>
      refine ⟨c, rfl, ?_⟩
      have := hs c (by simp)
      have hn := this.2.2
      unfold nameStop at hn
      simp only [Bool.or_eq_false_iff] at hn
      rintro (h | h)
      · exact this.1 h
      · rw [hn.2] at h; cases h
  obtain ⟨c, hc, hc'⟩ := h0
  rw [← hsh, parse]
  have ht : Token.trim false ([0x3f#8] ++ ((s ++ [0x25#8]) ++ [0])) = .ok 0 := rfl
  rw [ht, except_ok_bind]
  have hr : rd ([0x3f#8] ++ ((s ++ [0x25#8]) ++ [0])) 0 = .ok 0x3f#8 := rfl
  rw [hr, except_ok_bind, if_neg (by decide), if_neg (by decide), loop, Nat.zero_add, hc, except_ok_bind, if_neg hc']
  have hd : ([0x3f#8] ++ ((s ++ [0x25#8]) ++ [0])).drop 1 = (s ++ [0x25#8]) ++ [0] := rfl
  rw [hd, hscan, except_ok_bind]
  have hrd := rd_pre [0x3f#8] ((s ++ [0x25#8]) ++ [0]) (s ++ [0x25#8]).length
  rw [rd_mid] at hrd
  have hrd' : rd ([0x3f#8] ++ ((s ++ [0x25#8]) ++ [0])) (1 + (s ++ [0x25#8]).length) = .ok 0 := hrd
  have hw' : wr ([0x3f#8] ++ ((s ++ [0x25#8]) ++ [0])) (1 + (s ++ [0x25#8]).length) 0 = .ok ([0x3f#8] ++ ((s ++ [0x25#8]) ++ [0])) := hw
  rw [hrd', except_ok_bind, hw', except_ok_bind, decodeAt, hd, hsh2, C48_cut_escape (fun c h => ⟨(hs c h).1, (hs c h).2.1⟩)]
  rfl

/-! ### The theorems are not vacuous -/

/-- `http://x?q=a b&v&n=-12`: a text with a blank, a flag, and a negative number. -/
def exDoc : Doc := ⟨some [0x68#8, 0x3a#8, 0x2f#8, 0x78#8], [([0x71#8], .text [0x7a#8, 0x20#8, 0x62#8]), ([0x76#8], .flag), ([0x6e#8], .int (-12))]⟩

theorem exDoc_ok : exDoc.Ok := by
  have htext : ∀ l : List Byte, (∀ c ∈ l, c ≠ 0) → Text l := fun l h => h
  refine ⟨?_, ?_, ?_, ?_, ?_⟩
  · intro s h
    injection h with h
    subst h
    refine ⟨by simp, by simp, ?_⟩
    unfold Token.Blank
    decide
  · intro p hp
    simp only [exDoc, List.mem_cons, List.not_mem_nil, or_false] at hp
    rcases hp with rfl | rfl | rfl <;> exact ⟨htext _ (by decide), by simp⟩
  · intro p hp
    simp only [exDoc, List.mem_cons, List.not_mem_nil, or_false] at hp
    rcases hp with rfl | rfl | rfl
    · exact ⟨htext _ (by decide), by simp, .inr (.inr (.inr ⟨0x7a#8, by simp, by decide⟩))⟩
    · trivial
    · exact ⟨by decide, by decide⟩
  · intro h; cases h
  · simp [exDoc]

example : exDoc.text = [0x68#8, 0x3a#8, 0x2f#8, 0x78#8, 0x3f#8, 0x71#8, 0x3d#8, 0x7a#8, 0x2b#8, 0x62#8, 0x26#8, 0x76#8, 0x26#8, 0x6e#8, 0x3d#8, 0x2d#8, 0x31#8, 0x32#8] := by decide +kernel

/-- The date. -/
example : decimal [2, 0, 2, 4] ++ 0x2d#8 :: [0x30#8, 0x31#8, 0x2d#8, 0x31#8, 0x35#8] = [0x32#8, 0x30#8, 0x32#8, 0x34#8, 0x2d#8, 0x30#8, 0x31#8, 0x2d#8, 0x31#8, 0x35#8] ∧
    Zpl.Num.value 10 [2, 0, 2, 4] = 2024 := by decide +kernel

/-- `cafe`. -/
example : ∀ x ∈ [0x63#8, 0x61#8, 0x66#8, 0x65#8], Chars.isHexDigit x = true ∧ Chars.isDigit x = false := by decide

example {ρ : Type} (F : Reals ρ) (one : ρ) : parse F one [0x3f#8, 0x61#8, 0x25#8, 0] = .error .oob := C113_cut_escape F one (s := [0x61#8]) (by decide)

end Zpl.UriDoc
