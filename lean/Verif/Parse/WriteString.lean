import Verif.Sys.Stream
import Verif.Str.ZString
import Verif.Parse.Csv
import Verif.Parse.UriDoc

/-!
# Documents written to a string (json.c:53-64, csv.c:215-224, uri.c:186-195)  -  C125

The three functions open a new memory stream, let the writer print into it, and make a string of what the stream holds.  The writers are modelled in Json, Csv and
UriDoc with an output to which every print call appends; here the output is the memory stream of Sys/Stream, and the division of the text into print calls is
arbitrary.

## Model -/

namespace Zpl.WriteString

open Zpl.Str Zpl.Print Zpl.Fprintf

/-- print.c:14-19: the writes of a sequence of print calls, each with the outcome of the allocation it may need.  A print call returns -1 when its write fails; with
`checked` the writer gives up then (json.c:25-28, adt.c:5-8), and the result is `none`; the writers of CSV and URIs look at none of the results. -/
def prints (checked : Bool) (d : Stream.Fd) : List (Bool × List Byte) → Except Fault (Option Stream.Fd)
  | [] => .ok (some d)
  | c :: cs => do
    let (d, r) ← Stream.write c.1 d c.2
    if checked ∧ r = false then .ok none else prints checked d cs

/-- What is left after a call: the string, or a null pointer; and whether the stream has been closed. -/
structure Result where
  string : Option ZString.ZStr
  closed : Bool

/-- json.c:53-64 `zpl_json_write_string` (`checked`), csv.c:215-224 `zpl_csv_write_string_delimiter` and uri.c:186-195 `zpl_uri_write_string`, for a writer that makes these
print calls; the stream itself can be allocated. -/
def writeString (checked : Bool) (junk : Nat → Byte) (calls : List (Bool × List Byte)) : Except Fault Result :=
  match Stream.new with
  | none => .error .assertion
  | some d => do
    match ← prints checked d calls with
    | none => .ok { string := none, closed := false }
    | some d => do
      let z ← ZString.makeLength junk (some (Stream.buf d)) (Stream.buf d).length
      .ok { string := some z, closed := true }

/-! ## Specification -/

/-- Print calls whose allocations succeed. -/
def succeed (chunks : List (List Byte)) : List (Bool × List Byte) := chunks.map (true, ·)

/-- A string that holds the text: its length, its bytes, and a NUL. -/
def Is (z : ZString.ZStr) (text : List Byte) : Prop := z.length = text.length ∧ z.block = text ++ [0]

/-- The call has made the string `z`, and the stream is closed. -/
def Makes (r : Except Fault Result) (z : ZString.ZStr) : Prop := r = .ok { string := some z, closed := true }

/-! ## Lemmas -/

open Zpl.Stream in
theorem write_end {d : Fd} {bytes : List (BitVec 8)} (h : Inv d ⟨bytes, bytes.length⟩) (hm : d.mode = .clone) (c : List (BitVec 8)) :
    ∃ d', Stream.write true d c = .ok (d', true) ∧ Inv d' ⟨bytes ++ c, (bytes ++ c).length⟩ ∧ d'.mode = .clone := by
  have hs : (⟨bytes, bytes.length⟩ : File).step d.mode (.write c) = some (⟨bytes ++ c, (bytes ++ c).length⟩, .result true) := by
    rw [hm, File.step, if_neg (by decide)]
    dsimp only
    have : overwrite (decide (Mode.clone = Mode.clone)) bytes c bytes.length = bytes ++ c := by
      rw [overwrite, if_pos (by simp)]
      simp
    rw [this]
    simp only [File.moveTo]
    congr 3
    simp; omega
  obtain ⟨d', e, h1, h2⟩ := step_ok h (.write c) hs
  refine ⟨d', ?_, h1, by rw [h2, hm]⟩
  rw [step] at e
  revert e
  cases Stream.write true d c with
  | error => intro e; cases e
  | ok r =>
    obtain ⟨d2, r⟩ := r
    intro e
    injection e with e
    injection e with e1 e2
    injection e2 with e2
    rw [e1, e2]

theorem prints_ok (checked : Bool) (chunks : List (List Byte)) (rest : List (Bool × List Byte)) {d : Stream.Fd} {bytes : List Byte} (h : Stream.Inv d ⟨bytes, bytes.length⟩)
    (hm : d.mode = .clone) :
    ∃ d', prints checked d (succeed chunks ++ rest) = prints checked d' rest ∧ Stream.Inv d' ⟨bytes ++ chunks.flatten, (bytes ++ chunks.flatten).length⟩ ∧ d'.mode = .clone := by
  induction chunks generalizing d bytes with
  | nil => exact ⟨d, rfl, by simpa using h, hm⟩
  | cons c cs ih =>
    obtain ⟨d1, e1, h1, m1⟩ := write_end h hm c
    obtain ⟨d2, e2, h2, m2⟩ := ih h1 m1
    refine ⟨d2, ?_, by simpa using h2, m2⟩
    show prints checked d ((true, c) :: (succeed cs ++ rest)) = _
    rw [prints, e1, except_ok_bind]
    dsimp only
    rw [if_neg (by simp)]
    exact e2

theorem string_ok (junk : Nat → Byte) {d : Stream.Fd} {f : Stream.File} (h : Stream.Inv d f) :
    ∃ z, ZString.makeLength junk (some (Stream.buf d)) (Stream.buf d).length = .ok z ∧ Is z f.bytes := by
  rw [h.bytes]
  exact ⟨_, ZString.makeLength_ok junk f.bytes f.bytes.length (Nat.le_refl _), rfl, by simp⟩

/-! ## C125 -/

/-- **C125.** Whatever text a writer prints, and however it divides the text among its print calls: the string made of it is that text. -/
theorem C125_text (checked : Bool) (junk : Nat → Byte) (chunks : List (List Byte)) : ∃ z, Makes (writeString checked junk (succeed chunks)) z ∧ Is z chunks.flatten := by
  obtain ⟨d, e, m, h⟩ := (Stream.C47_open [] 0 .clone (by simp)).1
  obtain ⟨d', e', h', -⟩ := prints_ok checked chunks [] (bytes := []) h m
  obtain ⟨z, ez, hz⟩ := string_ok junk h'
  refine ⟨z, ?_, by simpa using hz⟩
  rw [List.append_nil, prints] at e'
  rw [Makes, writeString, e]
  dsimp only
  rw [e', except_ok_bind]
  dsimp only
  rw [ez, except_ok_bind]

/-- **C125, JSON, partial.** A document that is written to a string by `zpl_json_write_string` and read from that string again is the same document.  Missing: the
documents C49 does not cover. -/
theorem C125_json_partial {ν : Type} {io : Json.NumIO ν} {cmp : Bool} (pf : FloatPrinter) {st : Json.Style} {kind : Json.Kind ν} {kids : List (Json.Node ν)}
    (hd : (Json.Node.mk none st kind kids).Document io cmp) (hk : kind = .obj ∨ kind = .arr) {indent : Int}
    (hi : if cmp then indent = Json.compact else 0 ≤ indent ∧ indent + 4 * (Json.Node.mk none st kind kids).height < 65535) {buf : List Byte} (ho : (⟨buf, []⟩ : Out).Ok)
    (junk : Nat → Byte) :
    ∃ o', Json.write io pf ⟨buf, []⟩ (.mk none st kind kids) indent = .ok o' ∧ ∀ chunks : List (List Byte), chunks.flatten = o'.out →
      ∃ z r, Makes (writeString true junk (succeed chunks)) z ∧ Is z o'.out ∧ Json.parse io z.block = .ok (.ok r) ∧ r.plain = (Json.Node.mk none st kind kids).plain := by
  obtain ⟨o', text, e, ht, hp⟩ := Json.C49_round_trip_partial pf hd hk hi ho
  refine ⟨o', e, fun chunks hc => ?_⟩
  obtain ⟨z, ez, hz⟩ := C125_text _ junk chunks
  obtain ⟨r, er, hr⟩ := hp []
  have ht : o'.out = text := ht
  rw [hc] at hz
  exact ⟨z, r, ez, hz, by rw [hz.2, ht]; exact er, hr⟩

/-- **C125, CSV, partial.** The same for a table and `zpl_csv_write_string_delimiter`.  Missing: the tables C50 does not cover. -/
theorem C125_csv_partial {ν : Type} {io : Json.NumIO ν} (pf : FloatPrinter) {delim : Byte} (hd0 : delim ≠ 0) (hdq : delim ≠ 0x22#8) (hdb : ¬ Token.Blank delim)
    {cols : List (Csv.Column ν)} {named : Bool} (hr : Csv.Rectangular named cols) (hok : ∀ c ∈ Csv.inOrder cols, c.Ok io delim) (he : Csv.EmptyLast (Csv.inOrder cols))
    {buf : List Byte} (ho : (⟨buf, []⟩ : Out).Ok) (junk : Nat → Byte) :
    ∃ o', Csv.write io pf delim ⟨buf, []⟩ cols = .ok o' ∧ ∀ chunks : List (List Byte), chunks.flatten = o'.out →
      ∃ z, Makes (writeString false junk (succeed chunks)) z ∧ Is z o'.out ∧ Csv.parse io named delim z.block = .ok (.none, cols) := by
  obtain ⟨text, ⟨o', e, -, ht⟩, hp⟩ := Csv.C50_round_trip_partial pf hd0 hdq hdb hr hok he ho []
  refine ⟨o', e, fun chunks hc => ?_⟩
  obtain ⟨z, ez, hz⟩ := C125_text _ junk chunks
  have ht : o'.out = text := ht
  rw [hc] at hz
  exact ⟨z, ez, hz, by rw [hz.2, ht]; exact hp⟩

/-- **C125, URIs, partial.** The same for a URI and `zpl_uri_write_string`.  Missing: the URIs C113 does not cover. -/
theorem C125_uri_partial {ρ : Type} (F : Number.Reals ρ) (pf : FloatPrinter) (one : ρ) {d : UriDoc.Doc} (hd : d.Ok) {buf : List Byte} (ho : (⟨buf, []⟩ : Out).Ok)
    (junk : Nat → Byte) :
    ∃ o', UriDoc.write F pf (d.nodes one) ⟨buf, []⟩ = .ok o' ∧ ∀ chunks : List (List Byte), chunks.flatten = o'.out →
      ∃ z r, Makes (writeString false junk (succeed chunks)) z ∧ Is z o'.out ∧ UriDoc.parse F one z.block = .ok r ∧ r.Is one d := by
  obtain ⟨o', text, e, ht, hp⟩ := UriDoc.C113_round_trip_partial F pf one hd ho
  refine ⟨o', e, fun chunks hc => ?_⟩
  obtain ⟨z, ez, hz⟩ := C125_text _ junk chunks
  obtain ⟨r, er, hr⟩ := hp [] [] (by simp)
  have ht : o'.out = text := ht
  rw [hc] at hz
  exact ⟨z, r, ez, hz, by rw [hz.2, ht]; exact er, hr⟩

/-- After some print calls, one that needs room the stream cannot get. -/
theorem prints_fail (checked : Bool) (before : List (List Byte)) (c : List Byte) (rest : List (Bool × List Byte)) {d d' : Stream.Fd} (hd : Stream.new = some d)
    (hd' : prints checked d (succeed before) = .ok (some d')) (hfull : d'.buf.capacity < before.flatten.length + c.length) :
    ∃ d2, prints checked d (succeed before ++ (false, c) :: rest) = (if checked then .ok none else prints checked d2 rest) ∧
      Stream.Inv d2 ⟨before.flatten, before.flatten.length⟩ ∧ d2.mode = .clone := by
  obtain ⟨d0, e, m, h⟩ := (Stream.C47_open [] 0 .clone (by simp)).1
  have : d0 = d := Option.some.inj (e.symm.trans hd)
  subst this
  have key : ∀ rest, ∃ d1, prints checked d0 (succeed before ++ rest) = prints checked d1 rest ∧ Stream.Inv d1 ⟨before.flatten, before.flatten.length⟩ ∧ d1.mode = .clone := by
    intro rest
    obtain ⟨d1, e1, h1, m1⟩ := prints_ok checked before rest (bytes := []) h m
    exact ⟨d1, e1, by simpa using h1, m1⟩
  have same : ∀ (bs : List (List Byte)) (rest : List (Bool × List Byte)) (a b : Stream.Fd), prints checked a (succeed bs) = .ok (some b) →
      prints checked a (succeed bs ++ rest) = prints checked b rest := by
    intro bs rest
    induction bs with
    | nil => intro a b hab; injection hab with hab; injection hab with hab; subst hab; rfl
    | cons x bs ih =>
      intro a b hab
      change prints checked a ((true, x) :: succeed bs) = _ at hab
      change prints checked a ((true, x) :: (succeed bs ++ rest)) = _
      rw [prints] at hab ⊢
      revert hab
      cases Stream.write true a x with
      | error => intro hab; cases hab
      | ok r =>
        rw [except_ok_bind, except_ok_bind]
        dsimp only
        by_cases hr : checked = true ∧ r.2 = false
        · rw [if_pos hr]; intro hab; cases hab
        · rw [if_neg hr, if_neg hr]; exact ih _ _
  obtain ⟨d1, e1, h1, m1⟩ := key []
  rw [List.append_nil, hd', prints] at e1
  injection e1 with e1
  injection e1 with e1
  subst e1
  obtain ⟨d2, e2, h2, m2⟩ := Stream.failed_write h1 c m1 hfull
  have hmove : (⟨before.flatten, before.flatten.length⟩ : Stream.File).moveTo (0 + ((before.flatten.length : Int) + c.length)) = ⟨before.flatten, before.flatten.length⟩ := by
    simp only [Stream.File.moveTo]
    congr 1
    omega
  dsimp only at h2
  rw [hmove] at h2
  refine ⟨d2, ?_, h2, m2.trans m1⟩
  rw [same before _ _ _ hd', prints]
  dsimp only
  rw [e2, except_ok_bind]
  dsimp only
  cases checked <;> rfl

/-- **C125, deviation.** When the stream cannot grow for one print call of the CSV or URI writer, that piece of the text is missing from the string, and nothing tells: what is
printed later follows directly. -/
theorem C125_lost_piece (junk : Nat → Byte) (before : List (List Byte)) (c : List Byte) (after : List (List Byte)) {d d' : Stream.Fd} (hd : Stream.new = some d)
    (hd' : prints false d (succeed before) = .ok (some d')) (hfull : d'.buf.capacity < before.flatten.length + c.length) :
    ∃ z, Makes (writeString false junk (succeed before ++ (false, c) :: succeed after)) z ∧ Is z (before.flatten ++ after.flatten) := by
  obtain ⟨d2, e2, h2, m2⟩ := prints_fail false before c (succeed after) hd hd' hfull
  obtain ⟨d3, e3, h3, -⟩ := prints_ok false after [] h2 m2
  obtain ⟨z, ez, hz⟩ := string_ok junk h3
  refine ⟨z, ?_, hz⟩
  rw [List.append_nil, prints] at e3
  rw [Makes, writeString, hd]
  dsimp only
  rw [e2, if_neg (by simp), e3, except_ok_bind]
  dsimp only
  rw [ez, except_ok_bind]

/-- **C125, JSON.** When the stream cannot grow for one print call, `zpl_json_write_string` returns a null pointer, whatever would have followed.  Deviation: the stream is not
closed then, so its memory is lost. -/
theorem C125_json_reports (junk : Nat → Byte) (before : List (List Byte)) (c : List Byte) (rest : List (Bool × List Byte)) {d d' : Stream.Fd} (hd : Stream.new = some d)
    (hd' : prints true d (succeed before) = .ok (some d')) (hfull : d'.buf.capacity < before.flatten.length + c.length) :
    writeString true junk (succeed before ++ (false, c) :: rest) = .ok { string := none, closed := false } := by
  obtain ⟨d2, e2, -, -⟩ := prints_fail true before c rest hd hd' hfull
  rw [writeString, hd]
  dsimp only
  rw [e2, if_pos rfl, except_ok_bind]

/-! ## The hypotheses are met -/

/-- A text of nine bytes that a new stream has no room for. -/
example (junk : Nat → Byte) : ∃ z, Makes (writeString false junk [(true, [0x5b#8]), (false, List.replicate 9 0x61#8), (true, [0x5d#8])]) z ∧ Is z [0x5b#8, 0x5d#8] := by
  refine C125_lost_piece junk [[0x5b#8]] (List.replicate 9 0x61#8) [[0x5d#8]] (d := _) (d' := _) rfl rfl ?_
  decide +kernel

example (junk : Nat → Byte) : writeString true junk [(true, [0x5b#8]), (false, List.replicate 9 0x61#8), (true, [0x5d#8])] = .ok { string := none, closed := false } := by
  refine C125_json_reports junk [[0x5b#8]] (List.replicate 9 0x61#8) [(true, [0x5d#8])] (d := _) (d' := _) rfl rfl ?_
  decide +kernel

example (junk : Nat → Byte) : ∃ z, Makes (writeString true junk (succeed [[0x5b#8], [], List.replicate 9 0x61#8, [0x5d#8]])) z ∧
    Is z (0x5b#8 :: (List.replicate 9 0x61#8 ++ [0x5d#8])) := C125_text _ junk _

/-- The sample document of Json, at indentation 0. -/
example (pf : FloatPrinter) (junk : Nat → Byte) : ∃ o', Json.write Json.noNumbers pf ⟨List.replicate maxLen 0, []⟩ Json.sample 0 = .ok o' ∧
    ∀ chunks : List (List Byte), chunks.flatten = o'.out → ∃ z r, Makes (writeString true junk (succeed chunks)) z ∧ Is z o'.out ∧
      Json.parse Json.noNumbers z.block = .ok (.ok r) ∧ r.plain = Json.sample.plain :=
  C125_json_partial (cmp := false) pf (Json.sample_document false) (.inl rfl) (by simp [Json.Node.height, Json.heightL]) ⟨by simp, by decide +kernel⟩ junk

end Zpl.WriteString
