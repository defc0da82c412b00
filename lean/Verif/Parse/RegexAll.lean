import Verif.Parse.Regex

/-!
# All matches of a pattern (code/source/regex.c:735-763)  -  C123

The captures that are appended to the caller's array are cells of a buffer that is made without being filled: `junk` is what it holds. -/

namespace Zpl.Regex

open Zpl.Str

/-! ## Model -/

/-- A capture seen from `p` characters further on. -/
def Cap.shift (p : Int) (c : Cap) : Cap := { c with start := c.start + p }

/-- regex.c:745-758, the loop of `zpl_re_match_all`: `p` and `offset` as in C, `caps` the buffer and `out` the caller's array, with captures counted from the start of the whole
text.  `rounds` bounds the number of rounds. -/
def matchAllLoop (re : Re) (block : List Byte) (len fuel : Nat) : Nat → Nat → Int → List Cap → List Cap → Except Fault (Bool × List Cap)
  | 0, _, _, _, _ => .error .diverge
  | rounds + 1, p, offset, caps, out =>
    if p < len then do
      let (ok, caps, off) ← reMatch re (block.drop p) (len - p) fuel (caps.map (Cap.shift (-(p : Int))))
      let caps := caps.map (Cap.shift p)
      let offset := off.getD offset
      if !ok then .ok (false, out)
      else matchAllLoop re block len fuel rounds (p + offset.toNat) offset caps (out ++ caps)
    else .ok (true, out)

/-- regex.c:735-763 `zpl_re_match_all`; `max_capture_count` is the length of `junk`. -/
def matchAll (re : Re) (block : List Byte) (len fuel rounds : Nat) (junk out : List Cap) : Except Fault (Bool × List Cap) := matchAllLoop re block len fuel rounds 0 0 junk out

/-! ## Specification -/

/-- The first match in what follows `pos`: it ends `j` characters on, and its groups hold `cs`, counted from `pos`. -/
def First (text : List Byte) (p : Pat) (pos j : Nat) (cs : List (Nat × Nat)) : Prop :=
  ∃ i, p.Starts (text.length - pos) i ∧ Matches (text.drop pos) p i j cs ∧ ∀ k, k < i → ∀ j cs, ¬ Matches (text.drop pos) p k j cs

/-- Nothing that follows `pos` matches. -/
def None' (text : List Byte) (p : Pat) (pos : Nat) : Prop := ∀ i, p.Starts (text.length - pos) i → ∀ j cs, ¬ Matches (text.drop pos) p i j cs

/-- The text from `pos` on is walked through from match to match, the first match each time and none of them empty: to its end (`true`), or to a point where the pattern does not
match any more (`false`).  The list has, for each match, where the search for it began and what its groups hold. -/
inductive Walk (text : List Byte) (p : Pat) : Nat → Bool → List (Nat × List (Nat × Nat)) → Prop
  | done {pos} : text.length ≤ pos → Walk text p pos true []
  | stuck {pos} : pos < text.length → None' text p pos → Walk text p pos false []
  | next {pos j cs r ms} : pos < text.length → First text p pos j cs → 0 < j → Walk text p (pos + j) r ms → Walk text p pos r ((pos, cs) :: ms)

/-- `caps` are the captures of one match: as many as there is room for hold what the groups hold, the others are what `junk` is. -/
structure Chunk (p : Pat) (junk : List Cap) (m : Nat × List (Nat × Nat)) (caps : List Cap) : Prop where
  length : caps.length = junk.length
  held : ∀ k a b : Nat, m.2[k]? = some (a, b) → k < junk.length → caps[k]? = some ⟨m.1 + a, b⟩
  rest : ∀ k, p.groups ≤ k → caps[k]? = junk[k]?

/-- The captures of several matches, one after another. -/
inductive Chunks (p : Pat) (junk : List Cap) : List (Nat × List (Nat × Nat)) → List Cap → Prop
  | nil : Chunks p junk [] []
  | cons {m ms caps out} : Chunk p junk m caps → Chunks p junk ms out → Chunks p junk (m :: ms) (caps ++ out)

/-! ## C123 -/

theorem shift_shift (p : Int) (c : Cap) : (c.shift (-p)).shift p = c := by
  cases c
  simp only [Cap.shift, Cap.mk.injEq, and_true]
  omega

/-- What `C82_straight_patterns` says of one expression, whatever the text. -/
theorem straight {p : Pat} {pat : List Byte} {plen : Nat} (h0 : p ≠ .nil) (hok : p.Ok false) (hplus : p.hasPlus = false)
    (hg : p.groups ≤ 256) (hpl : plen ≤ pat.length) (hp : pat.take plen = p.spell) :
    ∃ re, compile pat plen = .ok (.none, re, false) ∧ re.captures = p.groups ∧ ∀ (block : List Byte) (len : Nat), len < block.length →
      (∀ i j cs, p.Starts len i → Matches (block.take len) p i j cs → (∀ k, k < i → ∀ j cs, ¬ Matches (block.take len) p k j cs) → ∀ caps,
        ∃ caps', caps'.length = caps.length ∧ Holds cs 0 caps' ∧ (∀ m, p.groups ≤ m → caps'[m]? = caps[m]?) ∧
          ∃ N, ∀ n, N ≤ n → reMatch re block len n caps = .ok (true, caps', some j)) ∧
      ((∀ i, p.Starts len i → ∀ j cs, ¬ Matches (block.take len) p i j cs) → ∀ caps,
        ∃ caps', caps'.length = caps.length ∧ (∀ m, p.groups ≤ m → caps'[m]? = caps[m]?) ∧
          ∃ N, ∀ n, N ≤ n → reMatch re block len n caps = .ok (false, caps', none)) := by
  obtain ⟨re, h1, h2, -⟩ := C82_straight_patterns (block := [0]) (len := 0) h0 hok hplus hg hpl hp (by simp)
  refine ⟨re, h1, h2, fun block len hl => ?_⟩
  obtain ⟨re', e1, -, e3, e4⟩ := C82_straight_patterns (block := block) (len := len) h0 hok hplus hg hpl hp hl
  rw [h1] at e1
  injection e1 with e1
  injection e1 with _ e1
  injection e1 with e1 _
  subst e1
  exact ⟨e3, e4⟩

theorem take_of_drop (block : List Byte) (len p : Nat) : (block.drop p).take (len - p) = (block.take len).drop p := by
  rw [List.drop_take]

/-- One round that finds something. -/
theorem round_found {p : Pat} {re : Re} {block : List Byte} {len pos j : Nat} {cs : List (Nat × Nat)}
    (hre : ∀ i j cs, p.Starts (len - pos) i → Matches ((block.drop pos).take (len - pos)) p i j cs → (∀ k, k < i → ∀ j cs, ¬ Matches ((block.drop pos).take (len - pos)) p k j cs) → ∀ caps,
        ∃ caps', caps'.length = caps.length ∧ Holds cs 0 caps' ∧ (∀ m, p.groups ≤ m → caps'[m]? = caps[m]?) ∧
          ∃ N, ∀ n, N ≤ n → reMatch re (block.drop pos) (len - pos) n caps = .ok (true, caps', some j))
    (hl : len < block.length) (hpos : pos < len) (hf : First (block.take len) p pos j cs) (junk caps : List Cap) (hc : caps.length = junk.length) (hj : ∀ k, p.groups ≤ k → caps[k]? = junk[k]?) :
    ∃ caps', Chunk p junk (pos, cs) caps' ∧ ∃ N, ∀ n, N ≤ n → ∀ (rounds : Nat) (offset : Int) (out : List Cap),
      matchAllLoop re block len n (rounds + 1) pos offset caps out = matchAllLoop re block len n rounds (pos + j) j caps' (out ++ caps') := by
  obtain ⟨i, s1, s2, s3⟩ := hf
  have hlen : (block.take len).length = len := by simp; omega
  rw [hlen] at s1
  obtain ⟨c', h1, h2, h3, N, h4⟩ := hre i j cs s1 (by rw [take_of_drop]; exact s2) (by rw [take_of_drop]; exact s3) (caps.map (Cap.shift (-(pos : Int))))
  rw [List.length_map] at h1
  refine ⟨c'.map (Cap.shift pos), ⟨by rw [List.length_map, h1, hc], ?_, ?_⟩, N, ?_⟩
  · intro k a b hk hlt
    have := h2 k a b hk (by omega)
    rw [Nat.zero_add] at this
    rw [List.getElem?_map, this]
    simp [Cap.shift, Int.add_comm]
  · intro k hk
    rw [List.getElem?_map, h3 k hk, List.getElem?_map, ← hj k hk]
    cases caps[k]? with
    | none => rfl
    | some c => simp [shift_shift]
  · intro n hn rounds offset out
    rw [matchAllLoop, if_pos hpos, h4 n hn]
    simp only [except_ok_bind, Bool.not_true, Bool.false_eq_true, if_false, Option.getD_some, Int.toNat_natCast]

/-- C123, for patterns without quantifiers and alternatives.  When the text is walked through from match to match, `zpl_re_match_all` says whether the walk came to the end of the
text, and appends the captures of all matches of the walk in order - for each as many as asked for: what the groups hold, as far as there are groups. -/
theorem C123_match_all_partial {p : Pat} {pat block : List Byte} {plen len : Nat} (h0 : p ≠ .nil) (hok : p.Ok false) (hplus : p.hasPlus = false)
    (hg : p.groups ≤ 256) (hpl : plen ≤ pat.length) (hp : pat.take plen = p.spell) (hl : len < block.length) :
    ∃ re, compile pat plen = .ok (.none, re, false) ∧ ∀ r ms, Walk (block.take len) p 0 r ms → ∀ junk out,
      ∃ caps, Chunks p junk ms caps ∧ ∃ N, ∀ n, N ≤ n → ∀ rounds, N ≤ rounds → matchAll re block len n rounds junk out = .ok (r, out ++ caps) := by
  obtain ⟨re, hc, -, hre⟩ := straight h0 hok hplus hg hpl hp
  refine ⟨re, hc, fun r ms hw junk out => ?_⟩
  have hlen : (block.take len).length = len := by simp; omega
  have key : ∀ pos r ms, Walk (block.take len) p pos r ms → ∀ (caps : List Cap), caps.length = junk.length → (∀ k, p.groups ≤ k → caps[k]? = junk[k]?) → ∀ (offset : Int) (out : List Cap),
      ∃ got, Chunks p junk ms got ∧ ∃ N, ∀ n, N ≤ n → ∀ rounds, N ≤ rounds → matchAllLoop re block len n rounds pos offset caps out = .ok (r, out ++ got) := by
    intro pos r ms hw
    induction hw with
    | done h =>
      intro caps hcl hj offset out
      rw [hlen] at h
      refine ⟨[], .nil, 1, fun n _ rounds hr => ?_⟩
      obtain ⟨rounds, rfl⟩ : ∃ k, rounds = k + 1 := ⟨rounds - 1, by omega⟩
      rw [matchAllLoop, if_neg (by omega)]
      simp
    | @stuck pos h hn =>
      intro caps hcl hj offset out
      rw [hlen] at h
      obtain ⟨-, h2⟩ := hre (block.drop pos) (len - pos) (by simp; omega)
      unfold None' at hn
      rw [hlen, ← take_of_drop] at hn
      obtain ⟨c', -, -, N, h3⟩ := h2 hn (caps.map (Cap.shift (-(pos : Int))))
      refine ⟨[], .nil, N + 1, fun n hn' rounds hr => ?_⟩
      obtain ⟨rounds, rfl⟩ : ∃ k, rounds = k + 1 := ⟨rounds - 1, by omega⟩
      rw [matchAllLoop, if_pos h, h3 n (by omega)]
      simp [except_ok_bind]
    | @next pos j cs r ms h hf hj0 hw ih =>
      intro caps hcl hj offset out
      rw [hlen] at h
      obtain ⟨h1, -⟩ := hre (block.drop pos) (len - pos) (by simp; omega)
      obtain ⟨c', k1, N1, k2⟩ := round_found h1 hl h hf junk caps hcl hj
      obtain ⟨got, g1, N2, g2⟩ := ih c' k1.length k1.rest j (out ++ c')
      refine ⟨c' ++ got, .cons k1 g1, N1 + N2 + 1, fun n hn rounds hr => ?_⟩
      obtain ⟨rounds, rfl⟩ : ∃ k, rounds = k + 1 := ⟨rounds - 1, by omega⟩
      rw [k2 n (by omega), g2 n (by omega) rounds (by omega), List.append_assoc]
  exact key 0 r ms hw junk rfl (fun _ _ => rfl) 0 out

/-- C123, where it fails: a pattern whose first match ends where the search began is found there for ever, and the array grows without end. -/
theorem C123_empty_match_diverges {p : Pat} {pat block : List Byte} {plen len : Nat} (h0 : p ≠ .nil) (hok : p.Ok false) (hplus : p.hasPlus = false)
    (hg : p.groups ≤ 256) (hpl : plen ≤ pat.length) (hp : pat.take plen = p.spell) (hl : len < block.length) (hlen : 0 < len) (cs : List (Nat × Nat)) (hf : First (block.take len) p 0 0 cs) :
    ∃ re, compile pat plen = .ok (.none, re, false) ∧ ∀ junk out rounds, ∃ N, ∀ n, N ≤ n → matchAll re block len n rounds junk out = .error .diverge := by
  obtain ⟨re, hc, -, hre⟩ := straight h0 hok hplus hg hpl hp
  refine ⟨re, hc, fun junk out rounds => ?_⟩
  have key : ∀ (rounds : Nat) (caps : List Cap), caps.length = junk.length → (∀ k, p.groups ≤ k → caps[k]? = junk[k]?) → ∀ (offset : Int) (out : List Cap),
      ∃ N, ∀ n, N ≤ n → matchAllLoop re block len n rounds 0 offset caps out = .error .diverge := by
    intro rounds
    induction rounds with
    | zero => intro caps _ _ offset out; exact ⟨0, fun n _ => rfl⟩
    | succ rounds ih =>
      intro caps hcl hj offset out
      obtain ⟨h1, -⟩ := hre (block.drop 0) (len - 0) (by simp; omega)
      obtain ⟨c', k1, N1, k2⟩ := round_found (pos := 0) h1 hl hlen hf junk caps hcl hj
      obtain ⟨N2, h2⟩ := ih c' k1.length k1.rest 0 (out ++ c')
      refine ⟨N1 + N2, fun n hn => ?_⟩
      rw [k2 n (by omega)]
      exact h2 n (by omega)
  exact key rounds junk rfl (fun _ _ => rfl) 0 out

/-- C123.  If the pattern never matches the empty text, every text is walked through one way or the other: `zpl_re_match_all` always comes to an answer. -/
theorem C123_always_answers {p : Pat} (hplus : p.hasPlus = false) (text : List Byte) (hne : ∀ t i j cs, Matches t p i j cs → i < j) : ∃ r ms, Walk text p 0 r ms := by
  have key : ∀ k pos, text.length - pos ≤ k → ∃ r ms, Walk text p pos r ms := by
    intro k
    induction k with
    | zero => intro pos h; exact ⟨true, [], .done (by omega)⟩
    | succ k ih =>
      intro pos h
      rcases Nat.lt_or_ge pos text.length with hlt | hge
      · -- the least place where it matches
        have dec : (∃ i, p.Starts (text.length - pos) i ∧ ∃ j cs, Matches (text.drop pos) p i j cs) ∨ None' text p pos := by
          by_cases h : ∃ i, p.Starts (text.length - pos) i ∧ ∃ j cs, Matches (text.drop pos) p i j cs
          · exact .inl h
          · exact .inr fun i hi j cs hm => h ⟨i, hi, j, cs, hm⟩
        rcases dec with ⟨i, hi, j, cs, hm⟩ | hn
        · have least : ∀ i, p.Starts (text.length - pos) i → (∃ j cs, Matches (text.drop pos) p i j cs) → ∃ j cs, First text p pos j cs := by
            intro i
            induction i using Nat.strongRecOn with
            | _ i ihi =>
              intro hs ⟨j, cs, hm⟩
              by_cases he : ∃ k, k < i ∧ ∃ j cs, Matches (text.drop pos) p k j cs
              · obtain ⟨k, hk, hm'⟩ := he
                refine ihi k hk ?_ hm'
                cases p <;> simp only [Pat.Starts] at hs ⊢ <;> omega
              · exact ⟨j, cs, i, hs, hm, fun k hk j cs hm' => he ⟨k, hk, j, cs, hm'⟩⟩
          obtain ⟨j, cs, hf⟩ := least i hi ⟨j, cs, hm⟩
          have hj : 0 < j := by
            obtain ⟨i, -, hm, -⟩ := hf
            have := hne _ _ _ _ hm
            omega
          obtain ⟨r, ms, hw⟩ := ih (pos + j) (by omega)
          exact ⟨r, _, .next hlt hf hj hw⟩
        · exact ⟨false, [], .stuck hlt hn⟩
      · exact ⟨true, [], .done hge⟩
  exact key text.length 0 (by omega)

/-- C123, for a text of ordinary characters as the pattern: it is true exactly of the texts that end with an occurrence of it, seen from the end of the last one before.  In
particular a text with something behind the last occurrence is refused, though the pattern occurs in it. -/
theorem C123_trailing_text {s b pat block : List Byte} {plen len : Nat} (hs : Ordinary s) (h0 : s ≠ []) (h127 : s.length ≤ 127) (hpl : plen ≤ pat.length) (hp : pat.take plen = s)
    (hl : len < block.length) (ht : block.take len = s ++ b) (hb0 : b ≠ []) (hb : ¬ s <:+: b) :
    ∃ re, compile pat plen = .ok (.none, re, false) ∧ ∀ junk out, ∃ caps, caps.length = junk.length ∧ ∃ N, ∀ n, N ≤ n → ∀ rounds, N ≤ rounds →
      matchAll re block len n rounds junk out = .ok (false, out ++ caps) := by
  have hok : (Pat.lit s .nil).Ok false := ⟨rfl, h0, hs, by simpa [Pat.extra] using h127, trivial⟩
  obtain ⟨re, hc, h⟩ := C123_match_all_partial (p := .lit s .nil) (by simp) hok (by simp [Pat.hasPlus]) (by simp [Pat.groups]) hpl (by simpa [Pat.spell] using hp) hl
  have hs0 : 0 < s.length := List.length_pos_iff.2 h0
  have hb1 : 0 < b.length := List.length_pos_iff.2 hb0
  have hw : Walk (block.take len) (.lit s .nil) 0 false [(0, [])] := by
    rw [ht]
    refine .next (j := s.length) (by simp; omega) ⟨0, by simp [Pat.Starts]; omega, matches_lit.2 ⟨by simp, by simp, rfl⟩, fun k hk => by omega⟩ hs0 (.stuck (by simp; omega) ?_)
    intro i _ j cs hm
    obtain ⟨h1, -, -⟩ := matches_lit.1 hm
    rw [Nat.zero_add, List.drop_left] at h1
    exact hb (h1.isInfix.trans (List.drop_suffix i b).isInfix)
  refine ⟨re, hc, fun junk out => ?_⟩
  obtain ⟨caps, hch, N, h2⟩ := h false _ hw junk out
  refine ⟨caps, ?_, N, h2⟩
  cases hch with
  | cons h1 h3 => cases h3; simp [h1.length]

/-- C123, for a text of ordinary characters: `k` copies of it, with room for the first capture or none, give `true` and `k` times the buffer as it was - no capture of the pattern is
there to be reported, so uninitialised cells are. -/
theorem C123_copies {s pat block : List Byte} {plen len : Nat} (k : Nat) (hs : Ordinary s) (h0 : s ≠ []) (h127 : s.length ≤ 127) (hpl : plen ≤ pat.length) (hp : pat.take plen = s)
    (hl : len < block.length) (ht : block.take len = (List.replicate k s).flatten) :
    ∃ re, compile pat plen = .ok (.none, re, false) ∧ ∀ junk out, ∃ N, ∀ n, N ≤ n → ∀ rounds, N ≤ rounds →
      matchAll re block len n rounds junk out = .ok (true, out ++ (List.replicate k junk).flatten) := by
  have hok : (Pat.lit s .nil).Ok false := ⟨rfl, h0, hs, by simpa [Pat.extra] using h127, trivial⟩
  obtain ⟨re, hc, h⟩ := C123_match_all_partial (p := .lit s .nil) (by simp) hok (by simp [Pat.hasPlus]) (by simp [Pat.groups]) hpl (by simpa [Pat.spell] using hp) hl
  have hs0 : 0 < s.length := List.length_pos_iff.2 h0
  have hw : ∀ (m : Nat) (pre : List Byte), ∃ ms, ms.length = m ∧ Walk (pre ++ (List.replicate m s).flatten) (.lit s .nil) pre.length true ms := by
    intro m
    induction m with
    | zero => intro pre; exact ⟨[], rfl, .done (by simp)⟩
    | succ m ih =>
      intro pre
      obtain ⟨ms, h1, h2⟩ := ih (pre ++ s)
      refine ⟨(pre.length, []) :: ms, by simp [h1], .next (j := s.length) ?_ ⟨0, ?_, matches_lit.2 ⟨?_, by simp, rfl⟩, fun k hk => by omega⟩ hs0 ?_⟩
      · simp [List.replicate_succ]; omega
      · simp [Pat.Starts, List.replicate_succ]; omega
      · simp [List.replicate_succ]
      · simpa [List.replicate_succ] using h2
  obtain ⟨ms, hm, hw⟩ := hw k []
  rw [List.nil_append, ← ht] at hw
  refine ⟨re, hc, fun junk out => ?_⟩
  obtain ⟨caps, hch, N, h2⟩ := h true ms hw junk out
  have flat : ∀ (ms : List (Nat × List (Nat × Nat))) (caps : List Cap), Chunks (.lit s .nil) junk ms caps → caps = (List.replicate ms.length junk).flatten := by
    intro ms caps hch
    induction hch with
    | nil => rfl
    | cons h1 h2 ih =>
      rw [ih, List.length_cons, List.replicate_succ, List.flatten_cons]
      congr 1
      exact List.ext_getElem? fun i => h1.rest i (by simp [Pat.groups])
  have := flat ms caps hch
  rw [hm] at this
  subst this
  exact ⟨N, h2⟩

/-- `(a)` over `xaa`: both are found, at 1 and at 2. -/
example : Walk [0x78#8, 0x61#8, 0x61#8] (.group (.lit [0x61#8] .nil) .nil) 0 true [(0, [(1, 1)]), (2, [(0, 1)])] := by
  refine .next (j := 2) (by decide) ⟨1, by simp [Pat.Starts], ?_, ?_⟩ (by decide) (.next (j := 1) (by decide) ⟨0, by simp [Pat.Starts], ?_, ?_⟩ (by decide) (.done (by decide)))
  · exact .group (k := 2) (cs := []) (ds := []) (matches_lit.2 ⟨by decide, rfl, rfl⟩) .nil
  · intro k hk j cs hm
    obtain rfl : k = 0 := by omega
    cases hm with
    | group hq _ =>
      have := (matches_lit.1 hq).1
      revert this
      decide
  · exact .group (k := 1) (cs := []) (ds := []) (matches_lit.2 ⟨by decide, rfl, rfl⟩) .nil
  · intro k hk; omega

/-- `^` matches the empty text, wherever the search begins. -/
example : First [0x78#8] (.bol .nil) 0 0 [] := ⟨0, rfl, .bol .nil, fun k hk => by omega⟩

/-- A group around a text never matches the empty text. -/
example : ∀ t i j cs, Matches t (.group (.lit [0x61#8] .nil) .nil) i j cs → i < j := by
  intro t i j cs hm
  cases hm with
  | group hq hp =>
    cases hp
    obtain ⟨-, rfl, -⟩ := matches_lit.1 hq
    simp

end Zpl.Regex
