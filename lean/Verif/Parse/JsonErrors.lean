import Verif.Parse.Json

/-!
# Malformed JSON texts (code/source/parsers/json.c:32-350)  -  C80

The model is that of `Parse/Json`.

## Specification -/

namespace Zpl.Json

open Zpl Zpl.Str Zpl.Token Zpl.AdtText

/-- Where in a text something is wrong. -/
inductive Place where
  | value
  | elems
  | members

/-- The texts with something wrong at their end, after a beginning that is right, and the error it is. -/
inductive Broken {ν : Type} (io : NumIO ν) : Place → List Byte → Err → Prop where
  /-- a word that is none of the constants, and not the beginning of one -/
  | word {c : Byte} {s : List Byte} : Chars.isAlpha c = Bool.true → (∀ k, ¬ word k <+: c :: s ∧ ¬ c :: s <+: word k) → Broken io .value (c :: s) .unknownKeyword
  | arr {t : List Byte} {e : Err} : Broken io .elems t e → Broken io .value (0x5b#8 :: t) e
  | obj {t : List Byte} {e : Err} : Broken io .members t e → Broken io .value (0x7b#8 :: t) e
  /-- the text ends where an array begins or after a comma in it -/
  | ends : Broken io .elems [0] .internal
  | inElem {w t : List Byte} {e : Err} : Blanks w → Broken io .value t e → Broken io .elems (w ++ t) e
  /-- after a value in an array there is neither a comma nor the end of the array -/
  | leftOpen {w w' t : List Byte} {k : Kind ν} {kids : List (Node ν)} {x : Byte} : Blanks w → Blanks w' → Spell io (.value k kids) t → x ∈ [0x7c#8, 0x7d#8, 0#8] →
      Broken io .elems (w ++ t ++ w' ++ [x]) .arrayLeftOpen
  | nextElem {w w' t u : List Byte} {k : Kind ν} {kids : List (Node ν)} {e : Err} : Blanks w → Blanks w' → Spell io (.value k kids) t → Broken io .elems u e →
      Broken io .elems (w ++ t ++ w' ++ 0x2c#8 :: u) e
  /-- an object is closed like an array -/
  | mismatched {w : List Byte} : Blanks w → Broken io .members (w ++ [0x5d#8]) .endPairMismatched
  /-- after a name in quotes there is no `:`, `=` or `|` -/
  | unassigned {w w' s : List Byte} {x : Byte} : Blanks w → Between 0x22#8 s → Blanks w' → ¬ Blank x → x ∉ [0x2f#8, 0x3a#8, 0x3d#8, 0x7c#8, 0#8] →
      Broken io .members (w ++ 0x22#8 :: s ++ 0x22#8 :: w' ++ [x]) .invalidAssignment
  | inMember {w0 nt w w' t name : List Byte} {asg : Byte} {ns : NameStyle} {e : Err} : Blanks w0 → NameText ns name nt → Blanks w → asg ∈ [0x3a#8, 0x3d#8, 0x7c#8] → Blanks w' →
      Broken io .value t e → Broken io .members (w0 ++ nt ++ w ++ asg :: w' ++ t) e
  | lastMember {w0 nt w w' t a name : List Byte} {asg : Byte} {ns : NameStyle} {k : Kind ν} {kids : List (Node ν)} : Blanks w0 → NameText ns name nt → Blanks w →
      asg ∈ [0x3a#8, 0x3d#8, 0x7c#8] → Blanks w' → Spell io (.value k kids) t → Inline a →
      Broken io .members (w0 ++ nt ++ w ++ asg :: w' ++ t ++ a ++ [0x5d#8]) .endPairMismatched
  | nextMember {w0 nt w w' t a u name : List Byte} {asg d : Byte} {ns : NameStyle} {k : Kind ν} {kids : List (Node ν)} {e : Err} : Blanks w0 → NameText ns name nt → Blanks w →
      asg ∈ [0x3a#8, 0x3d#8, 0x7c#8] → Blanks w' → Spell io (.value k kids) t → Inline a → d ∈ [0x2c#8, 0x7c#8, 0x0a#8] → Broken io .members u e →
      Broken io .members (w0 ++ nt ++ w ++ asg :: w' ++ t ++ a ++ d :: u) e

/-! ## Proofs -/

/-- What the parser does with it. -/
def Fails {ν : Type} (io : NumIO ν) : Place → List Byte → Err → Prop
  | .value, t, e => ∀ r n, 3 * t.length ≤ n → parseValue io n (t ++ r) = .ok (.err e)
  | .elems, t, e => ∀ r n done, 3 * t.length + 1 ≤ n → parseElements io n done (t ++ r) = .ok (.err e)
  | .members, t, e => ∃ w c v, t = w ++ c :: v ∧ Blanks w ∧ Stop Bool.false c ∧ c ≠ 0 ∧
      ∀ r n done, 3 * t.length + 1 ≤ n → parseMembers io n done (c :: v ++ r) = .ok (.err e)

/-- A text with something wrong begins with a character that is not a blank: what the callers look at before parsing it. -/
theorem broken_begins {ν : Type} {io : NumIO ν} {t : List Byte} {e : Err} (h : Broken io .value t e) : ∃ c u, t = c :: u ∧ Begins c := by
  cases h with
  | word h => exact ⟨_, _, rfl, .inr (.inr h)⟩
  | arr => exact ⟨_, _, rfl, by left; simp⟩
  | obj => exact ⟨_, _, rfl, by left; simp⟩

theorem hasPrefix_differs {w t : List Byte} (h1 : ¬ w <+: t) (h2 : ¬ t <+: w) (hw : Text w) (r : List Byte) : hasPrefix (t ++ r) (w ++ [0]) = .ok Bool.false := by
  induction w generalizing t with
  | nil => exact absurd (List.nil_prefix) h1
  | cons x w ih =>
    cases t with
    | nil => exact absurd (List.nil_prefix) h2
    | cons y t =>
      have hx := Text.cons.1 hw
      by_cases hxy : y = x
      · subst hxy
        rw [List.cons_append, List.cons_append, hasPrefix]
        rw [if_pos hx.1, if_neg (by simp)]
        exact ih (fun h => h1 (List.cons_prefix_cons.2 ⟨rfl, h⟩)) (fun h => h2 (List.cons_prefix_cons.2 ⟨rfl, h⟩)) hx.2
      · rw [List.cons_append, List.cons_append]
        exact hasPrefix_no hxy hx.1 _ _

theorem findWord_none {t : List Byte} (h : ∀ k, ¬ word k <+: t ∧ ¬ t <+: word k) (r : List Byte) : findWord (t ++ r) words = .ok none := by
  have : ∀ k, hasPrefix (t ++ r) (word k ++ [0]) = .ok Bool.false := fun k => hasPrefix_differs (h k).1 (h k).2 (by intro c hc; cases k <;> revert c <;> decide) r
  have e1 := this .true
  have e2 := this .false
  have e3 := this .null
  have e4 := this .inf
  have e5 := this .negInf
  have e6 := this .nan
  have e7 := this .negNan
  simp only [word] at e1 e2 e3 e4 e5 e6 e7
  simp only [words, findWord]
  rw [e1, e2, e3, e4, e5, e6, e7]
  rfl

theorem parseMembers_blanks {ν : Type} (io : NumIO ν) {w : List Byte} (hw : Blanks w) {c : Byte} (hc : Stop Bool.false c) (v : List Byte) (n : Nat) (done : List (Node ν)) :
    parseMembers io n done (w ++ c :: v) = parseMembers io n done (c :: v) := by
  cases n with
  | zero => rfl
  | succ n => rw [parseMembers, parseMembers, trim_blanks hw hc, trim_stop hc]

theorem delimiter_bracket {a : List Byte} (ha : Inline a) (u : List Byte) (st : Style) :
    ∃ f, delimiter (a ++ 0x5d#8 :: u) = .ok f ∧ f st = (st, Bool.false, 0x5d#8 :: u) := by
  unfold delimiter
  have e : isDelim 0x5d#8 = .ok Bool.false := by decide +kernel
  rw [trim_inline ha ⟨by decide, .inl (by unfold Blank; decide)⟩, except_ok_bind, rd_cons, except_ok_bind, e, except_ok_bind, if_neg (by simp)]
  exact ⟨_, rfl, rfl⟩

theorem bracket_fails {ν : Type} (io : NumIO ν) (v : List Byte) (n : Nat) (done : List (Node ν)) :
    parseMembers io (n + 1) done (0x5d#8 :: v) = .ok (.err .endPairMismatched) := by
  have h : strchr [0x7d#8, 0x5d#8, 0] 0x5d#8 = .ok Bool.true := by decide
  rw [parseMembers, trim_stop (stop_of (by simp) _), except_ok_bind, rd_cons, except_ok_bind, if_neg (by decide), h, except_ok_bind, if_pos rfl]

/-- The head of a member. -/
theorem member_head {ν : Type} (io : NumIO ν) {nt w w' name : List Byte} {asg : Byte} {ns : NameStyle} (hnt : NameText ns name nt) (hw : Blanks w)
    (ha : asg ∈ [0x3a#8, 0x3d#8, 0x7c#8]) (hw' : Blanks w') {d : Byte} (hd : Begins d) (v : List Byte) (n : Nat) (done : List (Node ν)) {e : Err}
    (h : parseValue io n (d :: v) = .ok (.err e)) :
    parseMembers io (n + 1) done (nt ++ w ++ asg :: w' ++ d :: v) = .ok (.err e) := by
  obtain ⟨c, u, hcu, hc1, hc2, hc3⟩ := name_begins hnt
  have e1 : nt ++ w ++ asg :: w' ++ d :: v = c :: (u ++ (w ++ asg :: (w' ++ d :: v))) := by rw [hcu]; simp
  have e2 : c :: (u ++ (w ++ asg :: (w' ++ d :: v))) = nt ++ w ++ asg :: (w' ++ d :: v) := by rw [hcu]; simp
  rw [e1, parseMembers, trim_stop hc1, except_ok_bind, rd_cons, except_ok_bind, if_neg hc2, hc3, except_ok_bind, if_neg (by simp), e2, parseName_ok hnt hw ha, except_ok_bind]
  dsimp only
  rw [drop_one, trim_blanks hw' (begins_stop hd).1, except_ok_bind, h, except_ok_bind]

theorem length_pos_of_begins {t u : List Byte} {c : Byte} (h : t = c :: u) : 0 < t.length := by rw [h]; simp

theorem fails {ν : Type} {io : NumIO ν} {p : Place} {t : List Byte} {e : Err} (h : Broken io p t e) : Fails io p t e := by
  induction h with
  | @word c s hc hs =>
    intro r n hn
    obtain ⟨n, rfl⟩ : ∃ m, n = m + 1 := ⟨n - 1, by simp at hn; omega⟩
    have h1 : ∀ c : Byte, Chars.isAlpha c = Bool.true → strchr [0x60#8, 0x22#8, 0x27#8, 0] c = .ok Bool.false := by decide +kernel
    have h2 : startsWord (c :: s ++ r) = .ok Bool.true := by
      rw [List.cons_append, startsWord, rd_cons, except_ok_bind, if_pos hc]
    rw [parseValue]
    rw [show rd (c :: s ++ r) 0 = .ok c from rfl, except_ok_bind, h1 c hc, except_ok_bind, if_neg (by simp), h2, except_ok_bind, if_pos rfl, findWord_none hs, except_ok_bind]
  | @arr t e hb ih =>
    intro r n hn
    obtain ⟨n, rfl⟩ : ∃ m, n = m + 1 + 1 := ⟨n - 2, by simp at hn; omega⟩
    have h1 : strchr [0x60#8, 0x22#8, 0x27#8, 0] 0x5b#8 = .ok Bool.false := by decide
    have h2 : ∀ u, startsWord (0x5b#8 :: u) = .ok Bool.false := fun u => rfl
    have h3 : strchr [0x5b#8, 0x7b#8, 0] 0x5b#8 = .ok Bool.true := by decide
    have e1 := ih r n [] (by simp at hn; omega)
    rw [List.cons_append, parseValue, rd_cons, except_ok_bind, h1, except_ok_bind, if_neg (by simp), h2, except_ok_bind, if_neg (by simp), if_neg (by decide), h3, except_ok_bind, if_pos rfl,
      parseObject, trim_stop (by exact ⟨by decide, .inl (by unfold Blank; decide)⟩), except_ok_bind, rd_cons, except_ok_bind, if_neg (by decide), if_pos rfl, drop_one, e1, except_ok_bind]
  | @obj t e hb ih =>
    intro r n hn
    obtain ⟨n, rfl⟩ : ∃ m, n = m + 1 + 1 := ⟨n - 2, by simp at hn; omega⟩
    have h1 : strchr [0x60#8, 0x22#8, 0x27#8, 0] 0x7b#8 = .ok Bool.false := by decide
    have h2 : ∀ u, startsWord (0x7b#8 :: u) = .ok Bool.false := fun u => rfl
    have h3 : strchr [0x5b#8, 0x7b#8, 0] 0x7b#8 = .ok Bool.true := by decide
    obtain ⟨w, c, v, rfl, hw, hc, -, ih⟩ := ih
    have e1 := ih r n [] (by simp at hn ⊢; omega)
    have e2 : parseMembers io n [] (w ++ c :: v ++ r) = .ok (.err e) := by
      rw [List.append_assoc, List.cons_append, parseMembers_blanks io hw hc]; exact e1
    rw [List.cons_append, parseValue, rd_cons, except_ok_bind, h1, except_ok_bind, if_neg (by simp), h2, except_ok_bind, if_neg (by simp), if_neg (by decide), h3, except_ok_bind, if_pos rfl,
      parseObject, trim_stop (by exact ⟨by decide, .inl (by unfold Blank; decide)⟩), except_ok_bind, rd_cons, except_ok_bind, if_pos rfl, drop_one, e2, except_ok_bind]
  | ends =>
    intro r n done hn
    obtain ⟨n, rfl⟩ : ∃ m, n = m + 1 := ⟨n - 1, by omega⟩
    rw [parseElements, show rd ([0] ++ r) 0 = .ok 0 from rfl, except_ok_bind, if_pos rfl]
  | @inElem w t e hw hb ih =>
    intro r n done hn
    obtain ⟨n, rfl⟩ : ∃ m, n = m + 1 := ⟨n - 1, by omega⟩
    obtain ⟨c, u, rfl, hc⟩ := broken_begins hb
    obtain ⟨h1, h2, h3⟩ := begins_stop hc
    have e1 := ih r n (by simp at hn ⊢; omega)
    have e0 : ∃ z, rd (w ++ c :: (u ++ r)) 0 = .ok z ∧ z ≠ 0 := by
      cases w with
      | nil => exact ⟨c, rfl, h3⟩
      | cons z w => exact ⟨z, rfl, (blank_ne (hw z (by simp))).2⟩
    obtain ⟨z, e0, hz⟩ := e0
    rw [List.append_assoc, List.cons_append, parseElements, e0, except_ok_bind, if_neg hz, trim_blanks hw h1, except_ok_bind, rd_cons, except_ok_bind, if_neg h2,
      ← List.cons_append, e1, except_ok_bind]
  | @leftOpen w w' t k kids x hw hw' hs hx =>
    intro r n done hn
    obtain ⟨n, rfl⟩ : ∃ m, n = m + 1 := ⟨n - 1, by omega⟩
    obtain ⟨c, u, rfl, hc⟩ := value_begins hs
    obtain ⟨h1, h2, h3⟩ := begins_stop hc
    have hx' : x = 0x7c#8 ∨ x = 0x7d#8 ∨ x = 0 := by simpa using hx
    have hfx : Follow x := by rcases hx' with rfl | rfl | rfl <;> (right; simp)
    have hsx : Stop Bool.false x := stop_of (by rcases hx' with rfl | rfl | rfl <;> simp) _
    obtain ⟨y, v, hv, hy⟩ := head_follow hw' hfx r
    obtain ⟨ks, e, hks⟩ := reads hs y v n hy (by simp at hn ⊢; omega)
    have e1 : w ++ c :: u ++ w' ++ [x] ++ r = w ++ c :: (u ++ y :: v) := by rw [← hv]; simp
    have e0 : ∃ z, rd (w ++ c :: (u ++ y :: v)) 0 = .ok z ∧ z ≠ 0 := by
      cases w with
      | nil => exact ⟨c, rfl, h3⟩
      | cons z w => exact ⟨z, rfl, (blank_ne (hw z (by simp))).2⟩
    obtain ⟨z, e0, hz⟩ := e0
    rw [e1, parseElements, e0, except_ok_bind, if_neg hz, trim_blanks hw h1, except_ok_bind, rd_cons, except_ok_bind, if_neg h2]
    have e2 : c :: (u ++ y :: v) = c :: u ++ y :: v := rfl
    rw [e2, e, except_ok_bind]
    dsimp only
    rw [← hv, trim_blanks hw' hsx, except_ok_bind, rd_cons, except_ok_bind, if_neg (by rcases hx' with rfl | rfl | rfl <;> decide),
      if_pos (by rcases hx' with rfl | rfl | rfl <;> decide)]
  | @nextElem w w' t u k kids e hw hw' hs hb ih =>
    intro r n done hn
    obtain ⟨n, rfl⟩ : ∃ m, n = m + 1 := ⟨n - 1, by omega⟩
    obtain ⟨ks, hks, e1⟩ := elem_read hw hw' hs (reads hs) (.inl rfl) (u ++ r) n (by simp at hn; omega) done
    have e2 : w ++ t ++ w' ++ 0x2c#8 :: u ++ r = w ++ t ++ w' ++ 0x2c#8 :: (u ++ r) := by simp
    rw [e2, e1, if_pos rfl]
    exact ih r n _ (by simp at hn; omega)
  | @mismatched w hw =>
    refine ⟨w, 0x5d#8, [], rfl, hw, stop_of (by simp) _, by decide, ?_⟩
    intro r n done hn
    obtain ⟨n, rfl⟩ : ∃ m, n = m + 1 := ⟨n - 1, by omega⟩
    exact bracket_fails io _ n done
  | @unassigned w w' s x hw hs hw' hxb hx =>
    have hq : Stop Bool.false 0x22#8 := ⟨by decide, .inl (by unfold Blank; decide)⟩
    refine ⟨w, 0x22#8, s ++ 0x22#8 :: w' ++ [x], by simp, hw, hq, by decide, ?_⟩
    intro r n done hn
    obtain ⟨n, rfl⟩ : ∃ m, n = m + 1 := ⟨n - 1, by omega⟩
    have hx' : x ≠ 0x2f#8 ∧ x ≠ 0x3a#8 ∧ x ≠ 0x3d#8 ∧ x ≠ 0x7c#8 ∧ x ≠ 0 := by simpa using hx
    have e3 : strchr [0x7d#8, 0x5d#8, 0] 0x22#8 = .ok Bool.false := by decide
    have e1 : 0x22#8 :: (s ++ 0x22#8 :: w' ++ [x]) ++ r = 0x22#8 :: (s ++ 0x22#8 :: (w' ++ x :: r)) := by simp
    obtain ⟨b, hb, hb'⟩ := isAssign_iff x
    have hbf : b = false := by
      cases b with
      | false => rfl
      | true =>
        have := hb'.1 rfl
        simp at this
        rcases this with h | h | h | h
        · exact absurd h hx'.2.1
        · exact absurd h hx'.2.2.1
        · exact absurd h hx'.2.2.2.1
        · exact absurd h hx'.2.2.2.2
    have e4 : parseName (0x22#8 :: (s ++ 0x22#8 :: (w' ++ x :: r))) = .ok (.err .invalidAssignment) := by
      unfold parseName
      rw [rd_cons, except_ok_bind, if_pos (.inl rfl)]
      dsimp only
      rw [drop_one, controlSkip_double s 0x22#8 hs.1 (fun a b h => ?_) ?_, except_ok_bind, wr_at, except_ok_bind]
      · unfold finishName
        rw [drop_past, trim_blanks hw' ⟨hx'.1, .inl hxb⟩, except_ok_bind, rd_cons, except_ok_bind, hb, except_ok_bind, if_pos ⟨hx'.2.2.2.2, hbf⟩]
      · cases s with
        | nil => simp
        | cons x a => simpa using hs.2.2
      · have := hs.2.1 a b h
        cases a with
        | nil => simp at this
        | cons x a => simpa using this
    rw [e1, parseMembers, trim_stop hq, except_ok_bind, rd_cons, except_ok_bind, if_neg (by decide), e3, except_ok_bind, if_neg (by simp), e4, except_ok_bind]
  | @inMember w0 nt w w' t name asg ns e h0 hnt hw ha hw' hb ih =>
    obtain ⟨c, u, hcu, hc1, hc2, hc3⟩ := name_begins hnt
    refine ⟨w0, c, u ++ w ++ asg :: w' ++ t, by rw [hcu]; simp, h0, hc1, ?_, ?_⟩
    · rintro rfl; exact absurd hc3 (by decide)
    · intro r n done hn
      obtain ⟨n, rfl⟩ : ∃ m, n = m + 1 := ⟨n - 1, by omega⟩
      obtain ⟨d, v, rfl, hd⟩ := broken_begins hb
      have := member_head io hnt hw ha hw' hd (v ++ r) n done (ih r n (by simp at hn ⊢; omega))
      rw [hcu] at this
      simpa using this
  | @lastMember w0 nt w w' t a name asg ns k kids h0 hnt hw ha hw' hs hi =>
    obtain ⟨c, u, hcu, hc1, hc2, hc3⟩ := name_begins hnt
    refine ⟨w0, c, u ++ w ++ asg :: w' ++ t ++ a ++ [0x5d#8], by rw [hcu]; simp, h0, hc1, ?_, ?_⟩
    · rintro rfl; exact absurd hc3 (by decide)
    · intro r n done hn
      obtain ⟨n, rfl⟩ : ∃ m, n = m + 1 + 1 := ⟨n - 2, by simp at hn; omega⟩
      obtain ⟨y, v, hv, hy⟩ := head_follow (fun c h => (hi c h).1) (show Follow 0x5d#8 by right; simp) r
      obtain ⟨ks, hks, em⟩ := member_read (w0 := []) (by simp [Blanks]) hnt hw ha hw' hs (reads hs) hy (v := v) (n + 1) (by simp at hn; omega) done
      have e1 : c :: (u ++ w ++ asg :: w' ++ t ++ a ++ [0x5d#8]) ++ r = [] ++ (nt ++ w ++ asg :: w' ++ t) ++ y :: v := by rw [← hv, hcu]; simp
      obtain ⟨f, ef, hf⟩ := delimiter_bracket hi r (nameStyle ns w asg)
      rw [e1, em, ← hv, ef, except_ok_bind, hf]
      dsimp only
      rw [if_neg (by simp), trim_stop (stop_of (by simp) _), except_ok_bind, rd_cons, except_ok_bind, if_pos (by decide)]
      exact bracket_fails io _ n _
  | @nextMember w0 nt w w' t a u' name asg d ns k kids e h0 hnt hw ha hw' hs hi hd hb ih =>
    obtain ⟨c, u, hcu, hc1, hc2, hc3⟩ := name_begins hnt
    refine ⟨w0, c, u ++ w ++ asg :: w' ++ t ++ a ++ d :: u', by rw [hcu]; simp, h0, hc1, ?_, ?_⟩
    · rintro rfl; exact absurd hc3 (by decide)
    · intro r n done hn
      obtain ⟨n, rfl⟩ : ∃ m, n = m + 1 := ⟨n - 1, by simp at hn; omega⟩
      have hfd : Follow d := by
        simp only [List.mem_cons, List.not_mem_nil, or_false] at hd
        rcases hd with rfl | rfl | rfl
        · right; simp
        · right; simp
        · left; unfold Blank; decide
      obtain ⟨y, v, hv, hy⟩ := head_follow (fun c h => (hi c h).1) hfd (u' ++ r)
      obtain ⟨ks, hks, em⟩ := member_read (w0 := []) (by simp [Blanks]) hnt hw ha hw' hs (reads hs) hy (v := v) n (by simp at hn; omega) done
      have e1 : c :: (u ++ w ++ asg :: w' ++ t ++ a ++ d :: u') ++ r = [] ++ (nt ++ w ++ asg :: w' ++ t) ++ y :: v := by rw [← hv, hcu]; simp
      obtain ⟨f, ef, hf⟩ := delimiter_ok hi hd (u' ++ r) (nameStyle ns w asg)
      rw [e1, em, ← hv, ef, except_ok_bind, hf]
      dsimp only
      obtain ⟨w1, z, x, rfl, hw1, hz, hz0, ih⟩ := ih
      rw [if_neg (by simp), List.append_assoc, List.cons_append, trim_blanks hw1 hz, except_ok_bind, rd_cons, except_ok_bind, if_pos hz0]
      exact ih r n _ (by simp at hn ⊢; omega)

/-! ## Theorems -/

/-- **C80.** A text that begins as a JSON object or array and goes wrong somewhere, at any depth and after any number of right parts, is refused with the error
    that names the mistake: an object closed like an array, an array that is not closed, a name without a value, a word that is no constant; nothing behind the
    mistake is looked at. -/
theorem C80_refused {ν : Type} {io : NumIO ν} {w t : List Byte} (hw : Blanks w) {c : Byte} (hc : c = 0x7b#8 ∨ c = 0x5b#8) {e : Err} (h : Broken io .value (c :: t) e)
    (rest : List Byte) : parse io (w ++ c :: t ++ rest) = .ok (.error e) := by
  have h3 : ∀ c, ∃ b, strchr [0x7b#8, 0x5b#8, 0] c = .ok b := by
    intro c
    obtain ⟨r, e, -⟩ := firstOcc_ok (s := [0x7b#8, 0x5b#8]) (by simp [Text]) [] c
    exact ⟨r.isSome, by rw [strchr, show [0x7b#8, 0x5b#8, 0] = [0x7b#8, 0x5b#8] ++ 0 :: [] from rfl, e]; rfl⟩
  have hst : Stop Bool.false c := by rcases hc with rfl | rfl <;> exact ⟨by decide, .inl (by unfold Blank; decide)⟩
  obtain ⟨w2, hw2, -, e1⟩ := trim_first hw hst (t ++ rest)
  obtain ⟨d, v, hdv⟩ : ∃ d v, w2 ++ c :: (t ++ rest) = d :: v := by cases w2 <;> exact ⟨_, _, rfl⟩
  obtain ⟨b, hb⟩ := h3 d
  have e0 : w ++ c :: t ++ rest = w ++ c :: (t ++ rest) := by simp
  rw [e0, parse, e1, except_ok_bind, hdv, rd_cons, except_ok_bind, hb, except_ok_bind, parseObject, ← hdv, trim_blanks hw2 hst, except_ok_bind, rd_cons, except_ok_bind]
  cases h with
  | word h => rcases hc with rfl | rfl <;> exact absurd h (by decide)
  | arr h =>
    have := fails h rest (4 * (w ++ 0x5b#8 :: (t ++ rest)).length + 3) [] (by simp; omega)
    rw [if_neg (by decide), if_pos rfl, drop_one, this, except_ok_bind]
  | obj h =>
    obtain ⟨w1, z, x, rfl, hw1, hz, hz0, ih⟩ := fails h
    have := ih rest (4 * (w ++ 0x7b#8 :: (w1 ++ z :: x ++ rest)).length + 3) [] (by simp; omega)
    rw [if_pos rfl, drop_one, List.append_assoc, List.cons_append, parseMembers_blanks io hw1 hz]
    rw [List.append_assoc, List.cons_append] at this
    rw [this, except_ok_bind]

/-- **C80 fails** for objects that are not closed: if the text ends after the members, the object is accepted. -/
theorem C80_unclosed_object_accepted {ν : Type} {io : NumIO ν} {kids : List (Node ν)} (hne : kids ≠ []) {w w' t : List Byte} (hw : Inline w) (hw' : Blanks w')
    (ht : Spell io (.members kids) t) (rest : List Byte) :
    ∃ r, parse io (w ++ 0x7b#8 :: w' ++ t ++ 0 :: rest) = .ok (.ok r) ∧ r.plain = .mk none {} .obj (plainL kids) := by
  have hst : Stop Bool.false 0x7b#8 := ⟨by decide, .inl (by unfold Blank; decide)⟩
  have h1 : strchr [0x7b#8, 0x5b#8, 0] 0x7b#8 = .ok Bool.true := by decide
  obtain ⟨w2, -, hw2, e1⟩ := trim_first hw.blanks hst (w' ++ t ++ 0 :: rest)
  obtain rfl := hw2 hw
  obtain ⟨ks, e, hks⟩ := reads ht w' 0 rest (4 * (w ++ 0x7b#8 :: (w' ++ t ++ 0 :: rest)).length + 3) [] hw' (.inr ⟨rfl, hne⟩) (by simp; omega)
  have e0 : w ++ 0x7b#8 :: w' ++ t ++ 0 :: rest = w ++ 0x7b#8 :: (w' ++ t ++ 0 :: rest) := by simp
  refine ⟨.mk none {} .obj ks, ?_, by rw [Node.plain, hks]⟩
  rw [e0, parse, e1, except_ok_bind, List.nil_append, rd_cons, except_ok_bind, h1, except_ok_bind, parseObject, trim_stop hst, except_ok_bind, rd_cons, except_ok_bind, if_pos rfl, drop_one, e,
    except_ok_bind]
  rfl

/-- The character an assignment style stands for. -/
def assignByte : AssignStyle → Byte
  | .colon => 0x3a#8
  | .equals => 0x3d#8
  | .line => 0x7c#8

/-- **C49, styles.** A member is read with the quotes and the assignment character it is written with, and the number of blanks before that character
    (modulo 16). -/
theorem C49_member_style {ns : NameStyle} {name nt : List Byte} (h : NameText ns name nt) {w : List Byte} (hw : Blanks w) (s : AssignStyle) (r : List Byte) :
    ∃ info, parseName (nt ++ w ++ assignByte s :: r) = .ok (.ok info (assignByte s :: r)) ∧ info.name = some name ∧ info.style.name = ns ∧ info.style.assign = s ∧
      info.style.assignWidth = w.length % 16 := by
  refine ⟨_, parseName_ok h hw (by cases s <;> simp [assignByte]) r, rfl, rfl, ?_, rfl⟩
  cases s <;> rfl

/-! ## The hypotheses are met -/

/-- `{"a": [true, {b = null]`: the inner object is closed like an array. -/
example (rest : List Byte) : parse noNumbers ([0x7b#8, 0x22#8, 0x61#8, 0x22#8, 0x3a#8, 0x20#8, 0x5b#8, 0x74#8, 0x72#8, 0x75#8, 0x65#8, 0x2c#8, 0x20#8, 0x7b#8, 0x62#8, 0x20#8, 0x3d#8, 0x20#8,
    0x6e#8, 0x75#8, 0x6c#8, 0x6c#8, 0x5d#8] ++ rest) = .ok (.error .endPairMismatched) := by
  have hb : Blanks [0x20#8] := by intro c hc; simp at hc; subst hc; unfold Blank; decide
  have h0 : Blanks [] := by simp [Blanks]
  refine C80_refused (w := []) h0 (.inl rfl) (.obj (.inMember (nt := [0x22#8, 0x61#8, 0x22#8]) (w0 := []) (w := []) (w' := [0x20#8]) (asg := 0x3a#8) h0
    (.double (s := [0x61#8]) ⟨by simp [Text], ?_, by decide⟩ ?_) h0 (by simp) hb (.arr (.nextElem (w := []) (w' := []) (t := [0x74#8, 0x72#8, 0x75#8, 0x65#8]) h0 h0 (.const .true)
      (.inElem (w := [0x20#8]) hb (.obj (.lastMember (w0 := []) (nt := [0x62#8]) (w := [0x20#8]) (w' := [0x20#8]) (t := [0x6e#8, 0x75#8, 0x6c#8, 0x6c#8]) (a := []) h0
        (.bare (s := []) (by decide) (by simp)) hb (by simp) hb (.const .null) (by simp [Inline])))))))) rest
  · intro a b h
    have : (0x22#8 : Byte) ∈ [0x61#8] := by rw [h]; simp
    simp at this
  · intro a b h
    have : (0x5c#8 : Byte) ∈ [0x61#8] := by rw [h]; simp
    simp at this

/-- `[yes`: an unknown word. -/
example (rest : List Byte) : parse noNumbers ([0x5b#8, 0x79#8] ++ rest) = .ok (.error .unknownKeyword) := by
  refine C80_refused (w := []) (t := [0x79#8]) (by simp [Blanks]) (.inr rfl) (.arr (.inElem (w := []) (by simp [Blanks]) (.word (s := []) (by decide) ?_))) rest
  intro k
  cases k <;> decide

/-- `{a:true`: accepted. -/
example (rest : List Byte) : ∃ r, parse noNumbers ([0x7b#8, 0x61#8, 0x3a#8, 0x74#8, 0x72#8, 0x75#8, 0x65#8] ++ 0 :: rest) = .ok (.ok r) ∧
    r.plain = .mk none {} .obj [.mk (some [0x61#8]) {} (.const .true) []] :=
  C80_unclosed_object_accepted (io := noNumbers) (kids := [.mk (some [0x61#8]) {} (.const .true) []]) (by simp) (w := []) (w' := []) (by simp [Inline]) (by simp [Blanks])
    (.lastMember (nt := [0x61#8]) (w := []) (asg := 0x3a#8) (w' := []) (t := [0x74#8, 0x72#8, 0x75#8, 0x65#8]) (a := []) (.bare (s := []) (by decide) (by simp)) (by simp [Blanks]) (by simp)
      (by simp [Blanks]) (.const .true) (by simp [Inline])) rest
end Zpl.Json
