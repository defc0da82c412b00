import Verif.Parse.UriDoc
import Verif.Parse.JsonEnds

/-!
# URIs from elsewhere (code/source/parsers/uri.c:5-31, 43-112)  -  C138

C113 is about the URIs this library writes.  Here are those others write, where letters may be escaped that need not be, escapes have small letters, and fields are
separated by `?`; and texts that are no URIs at all.  The model is that of `Parse.Uri` and `Parse.UriDoc`.

## Specification -/

namespace Zpl.UriDoc

open Zpl Zpl.Str Zpl.Print Zpl.Fprintf Zpl.Uri Zpl.Number

/-- The value of a hexadecimal digit. -/
def hexVal (c : Byte) : Nat := if c.toNat ≤ 0x39 then c.toNat - 0x30 else if c.toNat ≤ 0x46 then c.toNat - 0x37 else c.toNat - 0x57

/-- `e` is one of the ways to write `s` in a query: each byte as it is, as two hexadecimal digits after a percent sign, or a plus sign for a blank. -/
inductive Decodes : List Byte → List Byte → Prop where
  | nil : Decodes [] []
  | plain {c : Byte} {e s : List Byte} : c ≠ 0 → c ≠ 0x25#8 → c ≠ 0x2b#8 → Decodes e s → Decodes (c :: e) (c :: s)
  | plus {e s : List Byte} : Decodes e s → Decodes (0x2b#8 :: e) (0x20#8 :: s)
  | escape {a b : Byte} {e s : List Byte} : HexDigit a → HexDigit b → Decodes e s → Decodes (0x25#8 :: a :: b :: e) (BitVec.ofNat 8 (16 * hexVal a + hexVal b) :: s)

/-- A field as it is written: a name, and a value after an equals sign. -/
structure Field' where
  name : List Byte
  value : Option (List Byte)

/-- The characters of a field. -/
def Field'.text (f : Field') : List Byte :=
  f.name ++ match f.value with
    | none => []
    | some v => 0x3d#8 :: v

/-- No character of the field ends it too early. -/
def Field'.Plain (f : Field') : Prop :=
  (∀ c ∈ f.name, c ≠ 0x26#8 ∧ c ≠ 0x3f#8 ∧ c ≠ 0x3d#8 ∧ ¬ Token.Blank c) ∧ ∀ v, f.value = some v → ∀ c ∈ v, c ≠ 0x26#8 ∧ c ≠ 0x3f#8 ∧ ¬ Token.Blank c

/-- The field is a spelling of the parameter. -/
def Field'.Spells (f : Field') (p : List Byte × PVal) : Prop :=
  Decodes f.name p.1 ∧
  match p.2, f.value with
  | .flag, none => True
  | .text s, some v => Decodes v s
  | .int i, some v => Decodes v (signed 10 i)
  | _, _ => False

/-- Fields one after the other, each but the first after a separator. -/
def query : Field' → List (Byte × Field') → List Byte
  | f, [] => f.text
  | f, (x, g) :: r => f.text ++ x :: query g r

/-! ## Lemmas -/

theorem hex_read (a b : Byte) (ha : HexDigit a) (hb : HexDigit b) : Num.strToI64 [a, b, 0] 16 = .ok (((16 * hexVal a + hexVal b : Nat) : Int), 2) := by
  have hm : ∀ c : Byte, HexDigit c → c ∈ [0x30#8, 0x31#8, 0x32#8, 0x33#8, 0x34#8, 0x35#8, 0x36#8, 0x37#8, 0x38#8, 0x39#8, 0x41#8, 0x42#8, 0x43#8, 0x44#8, 0x45#8, 0x46#8,
      0x61#8, 0x62#8, 0x63#8, 0x64#8, 0x65#8, 0x66#8] := by unfold HexDigit; decide +kernel
  have : ∀ a ∈ [0x30#8, 0x31#8, 0x32#8, 0x33#8, 0x34#8, 0x35#8, 0x36#8, 0x37#8, 0x38#8, 0x39#8, 0x41#8, 0x42#8, 0x43#8, 0x44#8, 0x45#8, 0x46#8,
      0x61#8, 0x62#8, 0x63#8, 0x64#8, 0x65#8, 0x66#8], ∀ b ∈ [0x30#8, 0x31#8, 0x32#8, 0x33#8, 0x34#8, 0x35#8, 0x36#8, 0x37#8, 0x38#8, 0x39#8, 0x41#8, 0x42#8, 0x43#8, 0x44#8, 0x45#8, 0x46#8,
      0x61#8, 0x62#8, 0x63#8, 0x64#8, 0x65#8, 0x66#8], Num.strToI64 [a, b, 0] 16 = .ok (((16 * hexVal a + hexVal b : Nat) : Int), 2) := by decide +kernel
  exact this a (hm a ha) b (hm b hb)

theorem Decodes.length {e s : List Byte} (h : Decodes e s) : s.length ≤ e.length := by
  induction h with
  | nil => simp
  | plain _ _ _ _ ih => simp only [List.length_cons]; omega
  | plus _ ih => simp only [List.length_cons]; omega
  | escape _ _ _ ih => simp only [List.length_cons]; omega

theorem Decodes.chars {e s : List Byte} (h : Decodes e s) : Text e := by
  induction h with
  | nil => intro c h; cases h
  | plain h0 _ _ _ ih => exact Text.cons.2 ⟨h0, ih⟩
  | plus _ ih => exact Text.cons.2 ⟨by decide, ih⟩
  | escape ha hb _ ih =>
    have : ∀ c : Byte, HexDigit c → c ≠ 0 := by unfold HexDigit; decide +kernel
    exact Text.cons.2 ⟨by decide, Text.cons.2 ⟨this _ ha, Text.cons.2 ⟨this _ hb, ih⟩⟩⟩

theorem Decodes.loop {e s : List Byte} (h : Decodes e s) (rest : List Byte) : decodeLoop (e ++ 0 :: rest) = .ok s := by
  induction h with
  | nil => rw [List.nil_append, decodeLoop.eq_def]; rfl
  | plain h0 h1 h2 _ ih =>
    rw [List.cons_append, decodeLoop.eq_def]
    dsimp only
    rw [if_neg h0, if_pos h1, if_neg h2, ih, except_ok_bind]
  | plus _ ih =>
    rw [List.cons_append, decodeLoop.eq_def]
    dsimp only
    rw [if_neg (by decide), if_pos (by decide), if_pos rfl, ih, except_ok_bind]
  | escape ha hb _ ih =>
    rw [List.cons_append, List.cons_append, List.cons_append, decodeLoop.eq_def]
    dsimp only
    rw [if_neg (by decide), if_neg (by decide), hex_read _ _ ha hb, except_ok_bind]
    dsimp only
    rw [ih, except_ok_bind]
    rfl

theorem decodeAt_any (pre : List Byte) {e s : List Byte} (h : Decodes e s) (hs : Text s) (hl : s.length < 65536) (rest : List Byte) :
    ∃ j, j.length + s.length = e.length ∧ decodeAt (pre ++ (e ++ 0 :: rest)) pre.length = .ok (pre ++ (s ++ 0 :: (j ++ rest))) := by
  have hlen := h.length
  have hd : decode (e ++ 0 :: rest) = .ok (s ++ 0 :: (e ++ 0 :: rest).drop (s.length + 1)) := by
    rw [decode, h.loop, except_ok_bind, if_neg (by unfold maxLen; omega)]
    have hz : List.replicate (maxLen - s.length) (0 : Byte) = 0 :: List.replicate (maxLen - s.length - 1) 0 := by
      obtain ⟨k, hk⟩ : ∃ k, maxLen - s.length = k + 1 := ⟨maxLen - s.length - 1, by unfold maxLen; omega⟩
      rw [hk, List.replicate_succ]
      rfl
    have hc := Copy.copyText_ok hs (List.replicate (maxLen - s.length - 1) 0) (e ++ 0 :: rest) (by rw [List.length_append]; omega)
    rw [hz, Copy.strcpy, hc, except_ok_bind]
    rw [wr, if_pos (by simp; omega)]
    congr 1
    rw [List.set_append_right _ _ (Nat.le_refl _), Nat.sub_self]
    congr 1
    have : s.length < (e ++ 0 :: rest).length := by simp; omega
    rw [List.drop_eq_getElem_cons this]
    rfl
  obtain ⟨j, hj⟩ : ∃ j, (e ++ 0 :: rest).drop (s.length + 1) = j ++ rest ∧ j.length + s.length = e.length := by
    refine ⟨(e ++ [0]).drop (s.length + 1), ?_, ?_⟩
    · rw [show e ++ 0 :: rest = (e ++ [0]) ++ rest by simp, List.drop_append_of_le_length (by simp; omega)]
    · simp; omega
  refine ⟨j, hj.2, ?_⟩
  rw [decodeAt, List.drop_left, hd, except_ok_bind, List.take_left, hj.1]

/-- What ends a field. -/
def Ends' (x : Byte) : Prop := x = 0 ∨ x = 0x26#8 ∨ x = 0x3f#8

theorem ends_stop' {x : Byte} (h : Ends' x) : (x = 0 ∨ nameStop x = true) ∧ (x = 0 ∨ valueStop x = true) ∧ x ≠ 0x3d#8 := by
  rcases h with rfl | rfl | rfl <;> decide

theorem not_blank {c : Byte} (h : ¬ Token.Blank c) : Token.isSpace c = false := by
  cases hb : Token.isSpace c with
  | false => rfl
  | true => exact absurd ((blank_iff c).1 hb) h

theorem not_valueStop {c : Byte} (h : c ≠ 0x26#8 ∧ c ≠ 0x3f#8 ∧ ¬ Token.Blank c) : valueStop c = false := by
  rw [valueStop, not_blank h.2.2]; simp [h.1, h.2.1]

theorem not_nameStop {c : Byte} (h : c ≠ 0x26#8 ∧ c ≠ 0x3f#8 ∧ c ≠ 0x3d#8 ∧ ¬ Token.Blank c) : nameStop c = false := by
  rw [nameStop, not_blank h.2.2.2]; simp [h.1, h.2.1, h.2.2.1]

theorem rd_first (pre : List Byte) (l : List Byte) {c : Byte} (h : l[0]? = some c) : rd (pre ++ l) pre.length = .ok c := by
  have := rd_pre pre l 0
  rw [Nat.add_zero] at this
  rw [this, rd, h]

/-- One round on a field with a value. -/
theorem round_value' {ρ : Type} (F : Reals ρ) (one : ρ) (fuel : Nat) (pre : List Byte) {en n es s : List Byte} (hen : Decodes en n) (hes : Decodes es s) (hn : Text n) (hln : n.length < 65536)
    (hs : Text s) (hls : s.length < 65536) (hcn : ∀ c ∈ en, nameStop c = false) (hcs : ∀ c ∈ es, valueStop c = false) {x : Byte} (hx : Ends' x) (post : List Byte) :
    ∃ j j2, j.length + n.length = en.length ∧ j2.length + s.length = es.length ∧
      loop F one (fuel + 1) (pre ++ (en ++ 0x3d#8 :: (es ++ x :: post))) pre.length = (do
        let (v, _) ← parseNumberStrict F (s ++ 0 :: (j2 ++ post))
        next F one fuel ⟨pre.length, match v with | some m => .num m | none => .str (pre.length + en.length + 1)⟩ x
          (pre ++ (n ++ 0 :: (j ++ (s ++ 0 :: (j2 ++ post))))) (pre.length + en.length + 1 + es.length + 1)) := by
  obtain ⟨j, hj, e1⟩ := decodeAt_any pre hen hn hln (es ++ x :: post)
  have hP : (pre ++ (n ++ 0 :: j)).length = pre.length + en.length + 1 := by simp; omega
  obtain ⟨j2, hj2, e2⟩ := decodeAt_any (pre ++ (n ++ 0 :: j)) hes hs hls post
  refine ⟨j, j2, hj, hj2, ?_⟩
  obtain ⟨c0, hc0, hc0'⟩ : ∃ c, (en ++ 0x3d#8 :: (es ++ x :: post))[0]? = some c ∧ ¬ (c = 0 ∨ Token.isSpace c = true) := by
    cases en with
    | nil => exact ⟨0x3d#8, rfl, by decide⟩
    | cons c u =>
      refine ⟨c, rfl, ?_⟩
      have h1 := hen.chars c (by simp)
      have h2 := hcn c (by simp)
      unfold nameStop at h2
      simp only [Bool.or_eq_false_iff] at h2
      rintro (h | h); exacts [h1 h, by rw [h2.2] at h; cases h]
  have r0 := rd_first pre _ hc0
  have s1 := scanTo_ok (stop := nameStop) (s := en) (fun c h => ⟨hen.chars c h, hcn c h⟩) (x := 0x3d#8) (by decide) (es ++ x :: post)
  have s2 := scanTo_ok (stop := valueStop) (s := es) (fun c h => ⟨hes.chars c h, hcs c h⟩) (x := x) (ends_stop' hx).2.1 post
  have hsh : pre ++ (n ++ 0 :: (j ++ (es ++ x :: post))) = (pre ++ (n ++ 0 :: j)) ++ (es ++ x :: post) := by simp
  have hsh2 : ∀ z : List Byte, pre ++ (n ++ 0 :: (j ++ z)) = (pre ++ (n ++ 0 :: j)) ++ z := by intro z; simp
  rw [UriDoc.loop, r0, except_ok_bind, if_neg hc0', List.drop_left, s1, except_ok_bind, rd_pre, rd_mid, except_ok_bind, wr_pre, except_ok_bind, e1, except_ok_bind, if_pos rfl]
  simp only []
  rw [hsh, ← hP, List.drop_left, s2, except_ok_bind, rd_pre, rd_mid, except_ok_bind, wr_pre, except_ok_bind, e2, except_ok_bind, List.drop_left]
  rw [hsh2]
  rfl

/-- One round on a field without a value. -/
theorem round_flag' {ρ : Type} (F : Reals ρ) (one : ρ) (fuel : Nat) (pre : List Byte) {en n : List Byte} (hen : Decodes en n) (hn : Text n) (hln : n.length < 65536)
    (hcn : ∀ c ∈ en, nameStop c = false) {x : Byte} (hx : Ends' x) (hne : x = 0 → en ≠ []) (post : List Byte) :
    ∃ j, j.length + n.length = en.length ∧
      loop F one (fuel + 1) (pre ++ (en ++ x :: post)) pre.length =
        next F one fuel ⟨pre.length, .num { val := .real one, props := .true }⟩ x (pre ++ (n ++ 0 :: (j ++ post))) (pre.length + en.length + 1) := by
  obtain ⟨j, hj, e1⟩ := decodeAt_any pre hen hn hln post
  refine ⟨j, hj, ?_⟩
  obtain ⟨c0, hc0, hc0'⟩ : ∃ c, (en ++ x :: post)[0]? = some c ∧ ¬ (c = 0 ∨ Token.isSpace c = true) := by
    cases en with
    | nil =>
      refine ⟨x, rfl, ?_⟩
      rcases hx with rfl | rfl | rfl
      · exact absurd rfl (hne rfl)
      · decide
      · decide
    | cons c u =>
      refine ⟨c, rfl, ?_⟩
      have h1 := hen.chars c (by simp)
      have h2 := hcn c (by simp)
      unfold nameStop at h2
      simp only [Bool.or_eq_false_iff] at h2
      rintro (h | h); exacts [h1 h, by rw [h2.2] at h; cases h]
  have r0 := rd_first pre _ hc0
  have s1 := scanTo_ok (stop := nameStop) (s := en) (fun c h => ⟨hen.chars c h, hcn c h⟩) (x := x) (ends_stop' hx).1 post
  rw [UriDoc.loop, r0, except_ok_bind, if_neg hc0', List.drop_left, s1, except_ok_bind, rd_pre, rd_mid, except_ok_bind, wr_pre, except_ok_bind, e1, except_ok_bind, if_neg (ends_stop' hx).2.2]
  rfl

theorem round_field {ρ : Type} (F : Reals ρ) (pf : FloatPrinter) (one : ρ) (fuel : Nat) (pre : List Byte) {f : Field'} {p : List Byte × PVal} (hp : f.Plain) (hsp : f.Spells p)
    (hn : Text p.1) (hln : p.1.length < 65536) (hv : p.2.Ok) {x : Byte} (hx : Ends' x) (hne : x = 0 → f.text ≠ []) (post : List Byte) :
    ∃ mid e, mid.length = f.text.length + 1 ∧
      loop F one (fuel + 1) (pre ++ (f.text ++ x :: post)) pre.length = next F one fuel e x (pre ++ (mid ++ post)) (pre.length + mid.length) ∧
      ∀ post', e.Is one (pre ++ (mid ++ post')) p := by
  obtain ⟨n, v⟩ := p
  obtain ⟨en, fv⟩ := f
  obtain ⟨hp1, hp2⟩ := hp
  obtain ⟨hsn, hsv⟩ := hsp
  have hcn : ∀ c ∈ en, nameStop c = false := fun c h => not_nameStop (hp1 c h)
  dsimp only at hn hln hv hsn hsv hp1 hp2
  cases v with
  | flag =>
    cases fv with
    | some w => exact hsv.elim
    | none =>
      obtain ⟨j, hj, e⟩ := round_flag' F one fuel pre hsn hn hln hcn hx (fun h h' => hne h (by subst h'; rfl)) post
      refine ⟨n ++ 0 :: j, ⟨pre.length, .num { val := .real one, props := .true }⟩, ?_, ?_, fun post' => ⟨?_, rfl⟩⟩
      · simp [Field'.text]; omega
      · rw [Field'.text]
        dsimp only
        rw [List.append_nil, e]
        have h1 : pre.length + en.length + 1 = pre.length + (n ++ 0 :: j).length := by simp; omega
        have h2 : pre ++ (n ++ 0 :: (j ++ post)) = pre ++ (n ++ 0 :: j ++ post) := by simp
        rw [h1, h2]
      · rw [List.append_assoc, List.cons_append]
        exact reads_at pre hn _
  | text s =>
    cases fv with
    | none => exact hsv.elim
    | some w =>
      obtain ⟨hs, hls, hnum⟩ := hv
      obtain ⟨j, j2, hj, hj2, e⟩ := round_value' F one fuel pre hsn hsv hn hln hs hls hcn (fun c h => not_valueStop (hp2 w rfl c h)) hx post
      obtain ⟨k, hk⟩ := strict_text F hs hnum (j2 ++ post)
      rw [hk, except_ok_bind] at e
      refine ⟨n ++ 0 :: (j ++ (s ++ 0 :: j2)), ⟨pre.length, .str (pre.length + en.length + 1)⟩, ?_, ?_, fun post' => ⟨?_, ?_⟩⟩
      · simp [Field'.text]; omega
      · have h1 : pre.length + (n ++ 0 :: (j ++ (s ++ 0 :: j2))).length = pre.length + en.length + 1 + w.length + 1 := by simp; omega
        have h2 : pre ++ (n ++ 0 :: (j ++ (s ++ 0 :: j2)) ++ post) = pre ++ (n ++ 0 :: (j ++ (s ++ 0 :: (j2 ++ post)))) := by simp
        have h3 : Field'.text ⟨en, some w⟩ ++ x :: post = en ++ 0x3d#8 :: (w ++ x :: post) := by simp [Field'.text]
        rw [h1, h2, h3, e]
      · rw [List.append_assoc, List.cons_append]
        exact reads_at pre hn _
      · have h1 : pre.length + en.length + 1 = (pre ++ (n ++ 0 :: j)).length := by simp; omega
        have h2 : pre ++ (n ++ 0 :: (j ++ (s ++ 0 :: j2)) ++ post') = (pre ++ (n ++ 0 :: j)) ++ (s ++ 0 :: (j2 ++ post')) := by simp
        rw [h2]
        dsimp only
        rw [h1]
        exact reads_at _ hs _
  | int v =>
    cases fv with
    | none => exact hsv.elim
    | some w =>
      obtain ⟨h1, h2⟩ := hv
      have hc := signed_chars v
      obtain ⟨j, j2, hj, hj2, e⟩ := round_value' F one fuel pre hsn hsv hn hln (fun c h => (hc c h).1.2.2) (by have := signed_length h1 h2; omega) hcn
        (fun c h => not_valueStop (hp2 w rfl c h)) hx post
      obtain ⟨k, hk⟩ := strict_int F pf h1 h2 (j2 ++ post)
      rw [hk, except_ok_bind] at e
      refine ⟨n ++ 0 :: (j ++ (signed 10 v ++ 0 :: j2)), ⟨pre.length, .num { val := .int v }⟩, ?_, ?_, fun post' => ⟨?_, rfl⟩⟩
      · simp [Field'.text]; omega
      · have h1 : pre.length + (n ++ 0 :: (j ++ (signed 10 v ++ 0 :: j2))).length = pre.length + en.length + 1 + w.length + 1 := by simp; omega
        have h2 : pre ++ (n ++ 0 :: (j ++ (signed 10 v ++ 0 :: j2)) ++ post) = pre ++ (n ++ 0 :: (j ++ (signed 10 v ++ 0 :: (j2 ++ post)))) := by simp
        have h3 : Field'.text ⟨en, some w⟩ ++ x :: post = en ++ 0x3d#8 :: (w ++ x :: post) := by simp [Field'.text]
        rw [h1, h2, h3, e]
      · rw [List.append_assoc, List.cons_append]
        exact reads_at pre hn _

theorem loop_query {ρ : Type} (F : Reals ρ) (pf : FloatPrinter) (one : ρ) (gs : List (Byte × Field')) (f : Field') (p : List Byte × PVal) (ps : List (List Byte × PVal))
    (hpl : ∀ g ∈ f :: gs.map (·.2), g.Plain) (hsep : ∀ g ∈ gs, g.1 = 0x26#8 ∨ g.1 = 0x3f#8) (hsp : List.Forall₂ Field'.Spells (f :: gs.map (·.2)) (p :: ps))
    (hn : ∀ r ∈ p :: ps, Text r.1 ∧ r.1.length < 65536) (hv : ∀ r ∈ p :: ps, r.2.Ok)
    (hlast : ∀ g, (f :: gs.map (·.2)).getLast? = some g → g.text ≠ []) (rest : List Byte) (fuel : Nat) (hf : gs.length < fuel) (pre : List Byte) :
    ∃ es t, loop F one fuel (pre ++ (query f gs ++ 0 :: rest)) pre.length = .ok (es, pre ++ t) ∧ List.Forall₂ (Entry.Is one (pre ++ t)) es (p :: ps) := by
  induction gs generalizing fuel pre f p ps with
  | nil =>
    obtain ⟨fu, rfl⟩ : ∃ f, fuel = f + 1 := ⟨fuel - 1, by simp at hf; omega⟩
    cases hsp with
    | cons h1 h2 =>
      cases h2
      obtain ⟨mid, e, -, e2, e3⟩ := round_field F pf one fu pre (hpl f (by simp)) h1 (hn p (by simp)).1 (hn p (by simp)).2 (hv p (by simp)) (x := 0) (.inl rfl) (fun _ => hlast f rfl) rest
      refine ⟨[e], mid ++ rest, ?_, .cons (e3 rest) .nil⟩
      rw [query, e2, next, if_pos rfl]
  | cons g gs ih =>
    obtain ⟨fu, rfl⟩ : ∃ f, fuel = f + 1 := ⟨fuel - 1, by simp at hf; omega⟩
    obtain ⟨x, g⟩ := g
    cases hsp with
    | cons h1 h2 =>
      cases ps with
      | nil => cases h2
      | cons q ps =>
        have hx := hsep (x, g) (by simp)
        have hx0 : x ≠ 0 := by rcases hx with h | h <;> (dsimp only at h; rw [h]; decide)
        obtain ⟨mid, e, -, e2, e3⟩ := round_field F pf one fu pre (hpl f (by simp)) h1 (hn p (by simp)).1 (hn p (by simp)).2 (hv p (by simp)) (x := x) (.inr hx)
          (fun h => absurd h hx0) (query g gs ++ 0 :: rest)
        obtain ⟨es, t, e4, e5⟩ := ih g q ps (fun k hk => hpl k (by simp only [List.map_cons, List.mem_cons] at *; exact .inr hk)) (fun k hk => hsep k (by simp [hk])) h2
          (fun p h => hn p (List.mem_cons_of_mem _ h)) (fun p h => hv p (List.mem_cons_of_mem _ h)) (fun k hk => hlast k (by rw [List.map_cons, List.getLast?_cons_cons]; exact hk))
          fu (by simp at hf ⊢; omega) (pre ++ mid)
        refine ⟨e :: es, mid ++ t, ?_, .cons (e3 t) ?_⟩
        · rw [query, List.append_assoc, List.cons_append, e2, next, if_neg hx0, ← List.append_assoc, ← List.length_append, e4, except_ok_bind, List.append_assoc]
        · rw [← List.append_assoc]; exact e5

theorem query_length (f : Field') (gs : List (Byte × Field')) : gs.length ≤ (query f gs).length := by
  induction gs generalizing f with
  | nil => simp
  | cons g gs ih =>
    obtain ⟨x, g⟩ := g
    have := ih g
    rw [query]; simp only [List.length_cons, List.length_append]; omega

/-! ## C138 -/

/-- **C138.** A URI is read as what it says whichever way its names and values are written: blanks, an origin, a question mark, and fields separated by `&` or `?` each of which spells a
parameter give that origin and those parameters in their order.

`_partial`: for parameters that are `Ok` (C113 has those that are not), none of which has a NUL in it (`C138_nul_kept`). -/
theorem C138_any_spelling_partial {ρ : Type} (F : Reals ρ) (pf : FloatPrinter) (one : ρ) {ws o : List Byte} (hw : ∀ c ∈ ws, Token.Blank c) (ho : ∀ c ∈ o, c ≠ 0 ∧ c ≠ 0x3f#8 ∧ ¬ Token.Blank c)
    {f : Field'} {gs : List (Byte × Field')} {ps : List (List Byte × PVal)}
    (hpl : ∀ g ∈ f :: gs.map (·.2), g.Plain) (hsep : ∀ g ∈ gs, g.1 = 0x26#8 ∨ g.1 = 0x3f#8) (hsp : List.Forall₂ Field'.Spells (f :: gs.map (·.2)) ps)
    (hn : ∀ p ∈ ps, Text p.1 ∧ p.1.length < 65536) (hv : ∀ p ∈ ps, p.2.Ok) (hlast : ∀ g, (f :: gs.map (·.2)).getLast? = some g → g.text ≠ []) (rest : List Byte) :
    ∃ r, parse F one (ws ++ (o ++ 0x3f#8 :: (query f gs ++ 0 :: rest))) = .ok r ∧ r.Is one ⟨if o = [] then none else some o, ps⟩ := by
  have hw' : ∀ c ∈ ws, c ≠ 0 ∧ Token.isSpace c = true := by
    have : ∀ c : Byte, Token.Blank c → c ≠ 0 := by unfold Token.Blank; decide +kernel
    exact fun c h => ⟨this c (hw c h), (blank_iff c).2 (hw c h)⟩
  cases ps with
  | nil => cases hsp
  | cons p ps =>
  have hb := query_length f gs
  cases o with
  | nil =>
    have hsh : ws ++ 0x3f#8 :: (query f gs ++ 0 :: rest) = (ws ++ [0x3f#8]) ++ (query f gs ++ 0 :: rest) := by simp
    have hln : (ws ++ [0x3f#8]).length = ws.length + 1 := by simp
    obtain ⟨es, t, e, hf⟩ := loop_query F pf one gs f p ps hpl hsep hsp hn hv hlast rest ((ws ++ 0x3f#8 :: (query f gs ++ 0 :: rest)).length + 1)
      (by simp only [List.length_append, List.length_cons] at *; omega) (ws ++ [0x3f#8])
    refine ⟨⟨none, es, _⟩, ?_, trivial, hf⟩
    rw [List.nil_append, parse, trim_blanks hw' (.inr (by decide)), except_ok_bind, rd_mid, except_ok_bind, if_neg (by decide), if_neg (by decide), ← hln]
    rw [← hsh] at e
    rw [e, except_ok_bind]
  | cons c o' =>
    have hc := ho c (by simp)
    have hstop : ∀ d ∈ c :: o', d ≠ 0 ∧ originStop d = false := by
      intro c h
      obtain ⟨a1, a2, a4⟩ := ho c h
      exact ⟨a1, by rw [originStop, not_blank a4]; simp [a2]⟩
    generalize hS : c :: o' = s at *
    have hsh : ws ++ (s ++ 0 :: (query f gs ++ 0 :: rest)) = (ws ++ (s ++ [0])) ++ (query f gs ++ 0 :: rest) := by simp
    have hln : (ws ++ (s ++ [0])).length = ws.length + s.length + 1 := by simp; omega
    obtain ⟨es, t, e, hf⟩ := loop_query F pf one gs f p ps hpl hsep hsp hn hv hlast rest ((ws ++ (s ++ 0 :: (query f gs ++ 0 :: rest))).length + 1)
      (by simp only [List.length_append, List.length_cons] at *; omega) (ws ++ (s ++ [0]))
    have hne : s ≠ [] := by rw [← hS]; simp
    refine ⟨⟨some ws.length, es, _⟩, ?_, ?_, hf⟩
    · have htrim : Token.trim false (ws ++ (s ++ 0x3f#8 :: (query f gs ++ 0 :: rest))) = .ok ws.length := by
        rw [← hS, List.cons_append]; exact trim_blanks hw' (.inr (not_blank hc.2.2)) _
      have hrd : rd (ws ++ (s ++ 0x3f#8 :: (query f gs ++ 0 :: rest))) ws.length = .ok c := by
        rw [← hS, List.cons_append]; exact rd_mid _ _ _
      rw [parse, htrim, except_ok_bind, hrd, except_ok_bind, if_neg hc.1, if_pos hc.2.1, List.drop_left, scanTo_ok hstop (by decide), except_ok_bind, rd_pre, rd_mid, except_ok_bind,
        wr_pre, except_ok_bind, if_neg (by decide), ← hln]
      rw [← hsh] at e
      rw [e, except_ok_bind]
    · dsimp only
      rw [if_neg hne]
      have : (ws ++ (s ++ [0])) ++ t = ws ++ (s ++ 0 :: t) := by simp
      rw [this]
      exact reads_at ws (fun c h => (ho c h).1) _

/-! ### Any text comes to an end -/

theorem scanTo_ends (stop : Byte → Bool) : ∀ s : List Byte, Json.Ends (fun _ => True) (scanTo stop s)
  | [] => fun h => by cases h
  | c :: s => by
    rw [scanTo]
    split
    · trivial
    · exact (scanTo_ends stop s).bind fun _ _ => trivial

theorem decodeLoop_ends : ∀ (n : Nat) (s : List Byte), s.length ≤ n → Json.Ends (fun _ => True) (decodeLoop s)
  | 0, s, h => by
    cases s with
    | nil => rw [decodeLoop.eq_def]; exact fun h => by cases h
    | cons c s => simp at h
  | n + 1, s, h => by
    cases s with
    | nil => rw [decodeLoop.eq_def]; exact fun h => by cases h
    | cons c s =>
      simp only [List.length_cons] at h
      rw [decodeLoop.eq_def]
      dsimp only
      split
      · trivial
      · split
        · exact (decodeLoop_ends n s (by omega)).bind fun _ _ => trivial
        · cases s with
          | nil => exact fun h => by cases h
          | cons a s =>
            cases s with
            | nil => exact fun h => by cases h
            | cons b s =>
              simp only [List.length_cons] at h
              dsimp only
              refine (Json.strToI64_ends _ 16).bind fun v _ => ?_
              obtain ⟨v, k⟩ := v
              exact (decodeLoop_ends n s (by omega)).bind fun _ _ => trivial

theorem copyText_ends : ∀ (s d : List Byte), Json.Ends (fun t => t.length = d.length) (Copy.copyText d s)
  | [], d => by rw [Copy.copyText.eq_def]; exact fun h => by cases h
  | c :: s, d => by
    rw [Copy.copyText.eq_def]
    dsimp only
    split
    · cases d with
      | nil => exact fun h => by cases h
      | cons x d =>
        dsimp only
        exact (copyText_ends s d).bind fun t ht => by show (c :: t).length = _; simp only [List.length_cons, ht]
    · rfl

theorem decodeAt_ends (text : List Byte) (b : Nat) : Json.Ends (fun t => t.length = text.length) (decodeAt text b) := by
  have h : Json.Ends (fun t => t.length = (text.drop b).length) (decode (text.drop b)) := by
    unfold decode
    refine (decodeLoop_ends _ _ (Nat.le_refl _)).bind fun bs _ => ?_
    split
    · exact fun h => by cases h
    · refine (copyText_ends _ _).bind fun t ht => ?_
      exact (Json.wr_ends t _ 0).mono fun a ha => by rw [ha, ht]
  unfold decodeAt
  refine h.bind fun t ht => ?_
  show (text.take b ++ t).length = text.length
  rw [List.length_append, ht, List.length_take, List.length_drop]
  omega

theorem onlyNumberChars_ends (s : List Byte) : Json.Ends (fun _ => True) (onlyNumberChars s) := by
  induction s with
  | nil => exact fun h => by cases h
  | cons c s ih =>
    rw [onlyNumberChars]
    split
    · trivial
    · split
      · exact ih
      · trivial

theorem loop_ends {ρ : Type} {F : Reals ρ} (hF : ∀ s, F.read s ≠ .error .diverge) (one : ρ) : ∀ (n : Nat) (text : List Byte) (p : Nat), text.length < n + p → p ≤ text.length →
    Json.Ends (fun _ => True) (UriDoc.loop F one n text p)
  | 0, text, p, h, h' => by omega
  | n + 1, text, p, h, h' => by
    rw [UriDoc.loop]
    refine (Json.rd_ends text p).bind fun c hc => ?_
    split
    · trivial
    · refine (scanTo_ends _ _).bind fun k _ => (Json.rd_ends text (p + k)).bind fun c hc' => (Json.wr_ends _ _ _).bind fun t ht => (decodeAt_ends _ _).bind fun t' ht' => ?_
      split
      · refine (scanTo_ends _ _).bind fun k' _ => (Json.rd_ends t' _).bind fun c hc'' => (Json.wr_ends _ _ _).bind fun u hu => (decodeAt_ends _ _).bind fun u' hu' => ?_
        have hn : Json.Ends (fun _ => True) (parseNumberStrict F (u'.drop (p + k + 1))) := by
          unfold parseNumberStrict
          refine (onlyNumberChars_ends _).bind fun b _ => ?_
          split
          · exact Json.parseNumber_ends hF _
          · trivial
        refine hn.bind fun v _ => ?_
        obtain ⟨v, w⟩ := v
        dsimp only
        split
        · trivial
        · refine (loop_ends hF one n u' _ (by omega) (by omega)).bind fun r _ => ?_
          obtain ⟨es, t⟩ := r
          trivial
      · split
        · trivial
        · refine (loop_ends hF one n t' _ (by omega) (by omega)).bind fun r _ => ?_
          obtain ⟨es, t⟩ := r
          trivial

/-- **C138.** Reading a URI comes to an end, whatever the text. -/
theorem C138_parse_ends {ρ : Type} {F : Reals ρ} (hF : ∀ s, F.read s ≠ .error .diverge) (one : ρ) (text : List Byte) : parse F one text ≠ .error .diverge := by
  refine Json.Ends.ne (P := fun _ => True) ?_
  have ht : ∀ s : List Byte, Json.Ends (fun _ => True) (Token.trim false s) := by
    intro s
    induction s with
    | nil => exact fun h => by cases h
    | cons c s ih =>
      rw [Token.trim]
      split
      · exact ih.bind fun _ _ => trivial
      · trivial
  unfold parse
  refine (ht _).bind fun b _ => (Json.rd_ends _ _).bind fun c hc => ?_
  split
  · trivial
  · split
    · refine (scanTo_ends _ _).bind fun k _ => (Json.rd_ends text _).bind fun c hc => (Json.wr_ends _ _ _).bind fun t ht => ?_
      split
      · trivial
      · refine (loop_ends hF one _ t _ (by omega) (by omega)).bind fun r _ => ?_
        obtain ⟨es, t⟩ := r
        trivial
    · refine (loop_ends hF one _ text _ (by omega) (by omega)).bind fun r _ => ?_
      obtain ⟨es, t⟩ := r
      trivial

/-- **C138**, with the library's own reader of numbers. -/
theorem C138_ends (one : _) (text : List Byte) : parse Number.doubles one text ≠ .error .diverge :=
  C138_parse_ends (fun s => by
    have : Json.Ends (fun _ => True) (Number.doubles.read s) := (Json.strToF64_ends s).bind fun _ _ => trivial
    exact this.ne) one text

/-! ### What is not read as it says -/

/-- **C138 fails** for an escaped NUL: it is not decoded.  Copying stops in front of it, so the text from there on stays as it was written, cut to the length the decoded text would have had. -/
theorem C138_nul_kept {s e t : List Byte} (hs : ∀ c ∈ s, c ≠ 0 ∧ c ≠ 0x25#8 ∧ c ≠ 0x2b#8) (he : Decodes e t) (hl : s.length + t.length < 65535) (rest : List Byte) :
    ∃ r, decode (s ++ 0x25#8 :: 0x30#8 :: 0x30#8 :: (e ++ 0 :: rest)) = .ok (s ++ (0x25#8 :: 0x30#8 :: 0x30#8 :: e).take (t.length + 1) ++ 0 :: r) := by
  have hlen := he.length
  have hd : Decodes (s ++ 0x25#8 :: 0x30#8 :: 0x30#8 :: e) (s ++ 0 :: t) := by
    clear hl
    induction s with
    | nil => exact .escape (by unfold HexDigit; decide) (by unfold HexDigit; decide) he
    | cons c s ih =>
      obtain ⟨h0, h1, h2⟩ := hs c (by simp)
      exact .plain h0 h1 h2 (ih fun d h => hs d (by simp [h]))
  have hlp := hd.loop rest
  have hsh : s ++ 0x25#8 :: 0x30#8 :: 0x30#8 :: (e ++ 0 :: rest) = (s ++ 0x25#8 :: 0x30#8 :: 0x30#8 :: e) ++ 0 :: rest := by simp
  have hc := Copy.copyText_ok (s := s) (fun c h => (hs c h).1) (t ++ List.replicate (maxLen - (s ++ 0 :: t).length) 0) ((s ++ 0x25#8 :: 0x30#8 :: 0x30#8 :: e) ++ 0 :: rest)
    (by simp only [List.length_append, List.length_cons]; omega)
  have hsh2 : (s ++ 0 :: t) ++ List.replicate (maxLen - (s ++ 0 :: t).length) 0 = s ++ 0 :: (t ++ List.replicate (maxLen - (s ++ 0 :: t).length) 0) := by simp
  have hsh3 : s ++ List.drop s.length ((s ++ 0x25#8 :: 0x30#8 :: 0x30#8 :: e) ++ 0 :: rest) = s ++ ((0x25#8 :: 0x30#8 :: 0x30#8 :: e) ++ 0 :: rest) := by
    rw [List.append_assoc, List.drop_left]
  generalize hq : (0x25#8 :: 0x30#8 :: 0x30#8 :: e) = q at *
  have hql : q.length = e.length + 3 := by rw [← hq]; simp
  rw [hsh, decode, hlp, except_ok_bind, if_neg (by unfold maxLen; simp only [List.length_append, List.length_cons]; omega), hsh2, Copy.strcpy, hc, except_ok_bind, hsh3, wr,
    if_pos (by simp only [List.length_append, List.length_cons]; omega)]
  refine ⟨q.drop (t.length + 2) ++ 0 :: rest, ?_⟩
  congr 1
  have hlt : t.length + 1 < q.length := by omega
  have e1 : q = q.take (t.length + 1) ++ q[t.length + 1] :: q.drop (t.length + 2) := by
    rw [← List.drop_eq_getElem_cons hlt, List.take_append_drop]
  have e2 : (s ++ (0 : Byte) :: t).length = s.length + (t.length + 1) := by simp
  have e3 : (q.take (t.length + 1)).length = t.length + 1 := by rw [List.length_take]; omega
  rw [e2, List.set_append_right _ _ (by omega), Nat.add_sub_cancel_left, List.set_append_left _ _ hlt]
  conv => lhs; rw [e1]
  rw [List.set_append_right _ _ (by omega), e3, Nat.sub_self, List.set_cons_zero]
  simp

/-! ### The theorems are not vacuous -/

/-- `x?a=%2f/+b?n=%2d7&v`: the parameter `a` is `// b`, `n` is -7, and `v` is a flag. -/
example {ρ : Type} (F : Reals ρ) (pf : FloatPrinter) (one : ρ) (rest : List Byte) :
    ∃ r, parse F one ([0x78#8, 0x3f#8, 0x61#8, 0x3d#8, 0x25#8, 0x32#8, 0x66#8, 0x2f#8, 0x2b#8, 0x62#8, 0x3f#8, 0x6e#8, 0x3d#8, 0x25#8, 0x32#8, 0x64#8, 0x37#8, 0x26#8, 0x76#8, 0] ++ rest) = .ok r ∧
      r.Is one ⟨some [0x78#8], [([0x61#8], .text [0x2f#8, 0x2f#8, 0x20#8, 0x62#8]), ([0x6e#8], .int (-7)), ([0x76#8], .flag)]⟩ := by
  have hx : ∀ c : Byte, c = 0x32#8 ∨ c = 0x66#8 ∨ c = 0x64#8 → HexDigit c := by unfold HexDigit; decide +kernel
  have := C138_any_spelling_partial F pf one (ws := []) (o := [0x78#8]) (f := ⟨[0x61#8], some [0x25#8, 0x32#8, 0x66#8, 0x2f#8, 0x2b#8, 0x62#8]⟩)
    (gs := [(0x3f#8, ⟨[0x6e#8], some [0x25#8, 0x32#8, 0x64#8, 0x37#8]⟩), (0x26#8, ⟨[0x76#8], none⟩)])
    (ps := [([0x61#8], .text [0x2f#8, 0x2f#8, 0x20#8, 0x62#8]), ([0x6e#8], .int (-7)), ([0x76#8], .flag)]) (by simp) (by unfold Token.Blank; decide)
    (by
      intro g hg
      simp only [List.map_cons, List.map_nil, List.mem_cons, List.not_mem_nil, or_false] at hg
      rcases hg with rfl | rfl | rfl
      · exact ⟨by unfold Token.Blank; decide, fun v hv => by cases hv; unfold Token.Blank; decide⟩
      · exact ⟨by unfold Token.Blank; decide, fun v hv => by cases hv; unfold Token.Blank; decide⟩
      · exact ⟨by unfold Token.Blank; decide, fun v hv => by cases hv⟩)
    (by decide)
    (.cons ⟨.plain (by decide) (by decide) (by decide) .nil, .escape (hx _ (by decide)) (hx _ (by decide)) (.plain (by decide) (by decide) (by decide) (.plus (.plain (by decide) (by decide) (by decide) .nil)))⟩
      (.cons ⟨.plain (by decide) (by decide) (by decide) .nil, by
          show Decodes [0x25#8, 0x32#8, 0x64#8, 0x37#8] (signed 10 (-7))
          rw [show signed 10 (-7) = [0x2d#8, 0x37#8] by decide +kernel]
          exact .escape (hx _ (by decide)) (hx _ (by decide)) (.plain (by decide) (by decide) (by decide) .nil)⟩
        (.cons ⟨.plain (by decide) (by decide) (by decide) .nil, trivial⟩ .nil)))
    (by
      intro p hp
      simp only [List.mem_cons, List.not_mem_nil, or_false] at hp
      rcases hp with rfl | rfl | rfl <;> exact ⟨by simp [Text], by simp⟩)
    (by
      intro p hp
      simp only [List.mem_cons, List.not_mem_nil, or_false] at hp
      rcases hp with rfl | rfl | rfl
      · exact ⟨by simp [Text], by simp, .inr (.inr (.inr ⟨0x2f#8, by simp, by decide⟩))⟩
      · exact ⟨by decide, by decide⟩
      · trivial)
    (by intro g hg; simp only [List.map_cons, List.map_nil, List.getLast?_cons_cons, List.getLast?_singleton, Option.some.injEq] at hg; subst hg; simp [Field'.text]) rest
  exact this

/-- `a%00b` is read as `a%0`. -/
example : ∃ r, decode ([0x61#8, 0x25#8, 0x30#8, 0x30#8, 0x62#8] ++ [0]) = .ok ([0x61#8, 0x25#8, 0x30#8] ++ 0 :: r) :=
  C138_nul_kept (s := [0x61#8]) (e := [0x62#8]) (t := [0x62#8]) (by decide) (.plain (by decide) (by decide) (by decide) .nil) (by simp) []

end Zpl.UriDoc
