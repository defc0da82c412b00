import Verif.Parse.JsonErrors
import Verif.Parse.NumberDouble

/-!
# Parsing any JSON text (code/source/parsers/json.c)  -  C136

The model is that of `Parse/Json`: here nothing is assumed of the text.

## Proofs -/

namespace Zpl.Json

open Zpl Zpl.Str Zpl.Token Zpl.AdtText

/-- A call that comes to an end, and what holds of its result when there is one. -/
def Ends {α : Type} (P : α → Prop) : Except Fault α → Prop
  | .ok a => P a
  | .error e => e ≠ .diverge

theorem Ends.bind {α β : Type} {P : α → Prop} {Q : β → Prop} {r : Except Fault α} {f : α → Except Fault β} (h : Ends P r) (h' : ∀ a, P a → Ends Q (f a)) : Ends Q (r >>= f) := by
  cases r with
  | error e => exact h
  | ok a => exact h' a h

theorem Ends.bind_eq {α β : Type} {P : α → Prop} {Q : β → Prop} {r : Except Fault α} {f : α → Except Fault β} (h : Ends P r) (h' : ∀ a, r = .ok a → P a → Ends Q (f a)) : Ends Q (r >>= f) := by
  cases r with
  | error e => exact h
  | ok a => exact h' a rfl h

theorem Ends.mono {α : Type} {P Q : α → Prop} {r : Except Fault α} (h : Ends P r) (h' : ∀ a, P a → Q a) : Ends Q r := by
  cases r with
  | error e => exact h
  | ok a => exact h' a h

theorem Ends.any {α : Type} {P : α → Prop} {r : Except Fault α} (h : Ends P r) : Ends (fun _ => True) r := h.mono fun _ _ => trivial

theorem Ends.ne {α : Type} {P : α → Prop} {r : Except Fault α} (h : Ends P r) : r ≠ .error .diverge := by
  rintro rfl
  exact h rfl

theorem Ends.of_ne {α : Type} {r : Except Fault α} (h : r ≠ .error .diverge) : Ends (fun _ => True) r := by
  cases r with
  | error e => exact fun he => h (by rw [he])
  | ok a => trivial

theorem Ends.map {α β : Type} {P : α → Prop} {Q : β → Prop} {r : Except Fault α} {f : α → β} (h : Ends P r) (h' : ∀ a, P a → Q (f a)) : Ends Q (r.map f) := by
  cases r with
  | error e => exact h
  | ok a => exact h' a h

theorem rd_ends {α : Type} (l : List α) (i : Nat) : Ends (fun _ => i < l.length) (rd l i) := by
  unfold rd
  cases h : l[i]? with
  | none => exact fun h => by cases h
  | some a =>
    rw [List.getElem?_eq_some_iff] at h
    exact h.1

theorem wr_ends {α : Type} (l : List α) (i : Nat) (a : α) : Ends (fun l' => l'.length = l.length) (wr l i a) := by
  unfold wr
  split
  · exact List.length_set
  · exact fun h => by cases h

theorem hasPrefix_ends : ∀ (pre s : List Byte), Ends (fun _ => True) (hasPrefix s pre)
  | [], s => by rw [hasPrefix.eq_def]; exact fun h => by cases h
  | p :: pre, [] => by
    rw [hasPrefix.eq_def]
    dsimp only
    split
    · exact fun h => by cases h
    · trivial
  | p :: pre, c :: s => by
    rw [hasPrefix.eq_def]
    dsimp only
    split
    · split
      · trivial
      · exact hasPrefix_ends pre s
    · trivial

theorem firstOcc_ends (c : Byte) : ∀ s : List Byte, Ends (fun _ => True) (firstOcc c s)
  | [] => fun h => by cases h
  | x :: s => by
    rw [firstOcc]
    split
    · split
      · trivial
      · exact (firstOcc_ends c s).bind fun _ _ => trivial
    · trivial

theorem strchr_ends (l : List Byte) (c : Byte) : Ends (fun _ => True) (strchr l c) := (firstOcc_ends c l).map fun _ _ => trivial

theorem isControl_ends (c : Byte) : Ends (fun _ => True) (isControl c) := (firstOcc_ends c _).bind fun _ _ => trivial

theorem skip_ends (c : Byte) : ∀ s : List Byte, Ends (fun _ => True) (skip c s)
  | [] => fun h => by cases h
  | x :: s => by
    rw [skip]
    split
    · exact (skip_ends c s).bind fun _ _ => trivial
    · trivial

theorem skipLiteralLoop_ends (c : Byte) : ∀ (p : Byte) (s : List Byte), Ends (fun _ => True) (skipLiteralLoop c p s)
  | _, [] => fun h => by cases h
  | p, x :: s => by
    rw [skipLiteralLoop]
    split
    · exact (skipLiteralLoop_ends c x s).bind fun _ _ => trivial
    · trivial

theorem skipLiteral_ends (c : Byte) (s : List Byte) : Ends (fun _ => True) (skipLiteral c s) := by
  cases s with
  | nil => exact fun h => by cases h
  | cons x s =>
    rw [skipLiteral]
    split
    · trivial
    · exact (skipLiteralLoop_ends c x s).bind fun _ _ => trivial

theorem controlSkip_ends (c : Byte) : ∀ (p : Byte) (s : List Byte), Ends (fun _ => True) (controlSkip c p s)
  | _, [] => fun h => by cases h
  | p, x :: s => by
    rw [controlSkip]
    split
    · exact (controlSkip_ends c x s).bind fun _ _ => trivial
    · split
      · refine (isControl_ends c).bind fun b _ => ?_
        split
        · exact (controlSkip_ends c x s).bind fun _ _ => trivial
        · trivial
      · trivial

theorem strlen_ends : ∀ s : List Byte, Ends (fun _ => True) (strlen s)
  | [] => fun h => by cases h
  | x :: s => by
    rw [strlen]
    split
    · exact (strlen_ends s).bind fun _ _ => trivial
    · trivial

theorem validateName_ends : ∀ s : List Byte, Ends (fun _ => True) (validateName s)
  | [] => fun h => by cases h
  | c :: s => by
    have ih := validateName_ends s
    rw [validateName]
    split
    · trivial
    · split
      · exact ih
      · refine (rd_ends s 0).bind fun c1 _ => (isControl_ends c1).bind fun b _ => ?_
        split
        · exact ih
        · split
          · exact ih
          · refine (rd_ends s 1).bind fun c2 _ => ?_
            split
            · exact ih
            · refine (rd_ends s 2).bind fun c3 _ => ?_
              split
              · exact ih
              · refine (rd_ends s 3).bind fun c4 _ => ?_
                split
                · exact ih
                · trivial

theorem bareLen_ends : ∀ s : List Byte, Ends (fun _ => True) (bareLen s)
  | [] => fun h => by cases h
  | c :: s => by
    have ih := bareLen_ends s
    rw [bareLen]
    refine (strchr_ends _ c).bind fun b _ => ?_
    split
    · exact ih.bind fun _ _ => trivial
    · trivial

theorem stepOn_ends (p : List Byte) : Ends (fun r => ∀ q, r = some q → q.length < p.length) (stepOn p) := by
  cases p with
  | nil => exact fun h => by cases h
  | cons c p =>
    show ∀ q, _ → _
    intro q hq
    split at hq
    · cases hq; simp
    · cases hq

theorem trimRound_ends (nl : Bool) (p : List Byte) : Ends (fun r => match r with | .inl q => q.length ≤ p.length | .inr q => q.length ≤ p.length) (trimRound nl p) := by
  unfold trimRound
  refine (hasPrefix_ends _ p).bind fun b _ => ?_
  split
  · refine (skip_ends _ p).bind fun k _ => ?_
    show (p.drop k).length ≤ _
    simp
  · refine (hasPrefix_ends _ p).bind fun b _ => ?_
    split
    · refine (skip_ends _ _).bind fun k _ => (rd_ends _ 0).bind fun c _ => ?_
      split
      · refine (rd_ends _ 1).bind fun c _ => ?_
        split
        · show (((p.drop 2).drop k).drop 2).length ≤ _
          simp
        · exact Nat.le_refl _
      · exact Nat.le_refl _
    · refine (rd_ends _ 0).bind fun c _ => ?_
      split
      · exact Nat.le_refl _
      · exact Nat.le_refl _

theorem jtrim_ends (nl : Bool) : ∀ (n : Nat) (p : List Byte), p.length < n → Ends (fun q => q.length ≤ p.length) (jtrim nl n p)
  | 0, p, h => by omega
  | n + 1, p, h => by
    rw [jtrim]
    refine (trimRound_ends nl p).bind fun r hr => ?_
    cases r with
    | inl q => exact hr
    | inr q =>
      dsimp only at hr ⊢
      refine (stepOn_ends q).bind fun r hr' => ?_
      cases r with
      | none => exact fun h => by cases h
      | some q' =>
        have := hr' q' rfl
        exact (jtrim_ends nl n q' (by omega)).mono fun a ha => by omega

theorem trimText_ends (nl : Bool) (p : List Byte) : Ends (fun q => q.length ≤ p.length) (trimText nl p) := jtrim_ends nl _ p (by omega)

/-- A result does not go back in the text. -/
def Within {α : Type} (n : Nat) : Res α → Prop
  | .err _ => True
  | .ok _ p => p.length ≤ n

theorem cutName_ends (b : List Byte) (len : Nat) (ns : NameStyle) : Ends (fun _ => True) (cutName b len ns) := by
  unfold cutName
  split
  · refine (rd_ends _ _).bind fun c _ => ?_
    split
    · exact (wr_ends _ _ _).bind fun _ _ => trivial
    · trivial
  · trivial

theorem finishName_ends (b : List Byte) (len e : Nat) (ns : NameStyle) : Ends (Within (b.length - e)) (finishName b len e ns) := by
  unfold finishName
  refine (trimText_ends false _).bind fun p hp => (rd_ends p 0).bind fun c _ => (strchr_ends _ c).bind fun a _ => ?_
  split
  · trivial
  · refine (cutName_ends b len ns).bind fun r _ => (validateName_ends r.1).bind fun v _ => ?_
    split
    · trivial
    · show p.length ≤ _
      simpa using hp

theorem parseName_ends (p : List Byte) : Ends (Within p.length) (parseName p) := by
  unfold parseName
  refine (rd_ends p 0).bind fun c hc => ?_
  split
  · refine (controlSkip_ends c c _).bind fun k _ => (wr_ends _ k 0).bind fun b hb => ?_
    refine (finishName_ends b k (k + 1) _).mono fun r hr => ?_
    cases r with
    | err => trivial
    | ok i q =>
      simp only [Within, List.length_drop] at hr hb ⊢
      omega
  · split
    · refine (bareLen_ends _).bind fun k _ => ?_
      refine (finishName_ends p _ _ _).mono fun r hr => ?_
      cases r with
      | err => trivial
      | ok i q =>
        simp only [Within] at hr ⊢
        omega
    · exact Nat.le_refl _

theorem findWord_ends (p : List Byte) : ∀ ws, Ends (fun _ => True) (findWord p ws)
  | [] => trivial
  | (w, c) :: ws => by
    rw [findWord]
    refine (hasPrefix_ends _ _).bind fun b _ => ?_
    split
    · trivial
    · exact findWord_ends p ws

theorem parseQuoted_ends {ν : Type} (c : Byte) (p : List Byte) : Ends (Within p.length) (parseQuoted (ν := ν) c p) := by
  unfold parseQuoted
  refine (skipLiteral_ends c _).bind fun e _ => (wr_ends _ e 0).bind fun b hb => (strlen_ends b).bind fun l _ => ?_
  simp only [Ends, Within, List.length_drop] at hb ⊢
  omega

theorem startsWord_ends (p : List Byte) : Ends (fun _ => True) (startsWord p) := by
  unfold startsWord
  refine (rd_ends p 0).bind fun c _ => ?_
  split
  · trivial
  · split
    · exact (rd_ends p 1).bind fun _ _ => trivial
    · trivial

theorem delimiter_ends (p : List Byte) : Ends (fun f => ∀ s, (f s).2.2.length ≤ p.length) (delimiter p) := by
  unfold delimiter
  refine (trimText_ends true p).bind fun q hq => (rd_ends q 0).bind fun c _ => (strchr_ends _ c).bind fun b _ => ?_
  split
  · intro s
    dsimp only
    split
    · exact hq
    · simp only [List.length_drop]; omega
  · intro s
    exact hq

section
variable {ν : Type} {io : NumIO ν} (hio : ∀ p, io.read p ≠ .error .diverge)
include hio

theorem parse_ends (n : Nat) :
    (∀ p : List Byte, 3 * p.length + 1 ≤ n → Ends (Within p.length) (parseValue io n p)) ∧
    (∀ (c : Byte) (u : List Byte), c = 0x5b#8 ∨ c = 0x7b#8 → 3 * (u.length + 1) ≤ n → Ends (Within u.length) (parseObject io n (c :: u))) ∧
    (∀ (done : List (Node ν)) (p : List Byte), 3 * p.length + 2 ≤ n → Ends (Within p.length) (parseElements io n done p)) ∧
    (∀ (done : List (Node ν)) (p : List Byte), 3 * p.length + 2 ≤ n → Ends (Within p.length) (parseMembers io n done p)) := by
  induction n with
  | zero => exact ⟨fun p h => by omega, fun c u _ h => by omega, fun _ p h => by omega, fun _ p h => by omega⟩
  | succ n ih =>
    obtain ⟨ihV, ihO, ihE, ihM⟩ := ih
    refine ⟨fun p h => ?_, fun c u hc h => ?_, fun done p h => ?_, fun done p h => ?_⟩
    · rw [parseValue]
      refine (rd_ends p 0).bind_eq fun c ec hc => (strchr_ends _ c).bind_eq fun b eb _ => ?_
      split
      · exact parseQuoted_ends c p
      · next hb =>
        refine (startsWord_ends p).bind fun b' _ => ?_
        split
        · refine (findWord_ends p words).bind fun r _ => ?_
          cases r with
          | none => trivial
          | some r =>
            show (p.drop r.2).length ≤ _
            simp
        · split
          · refine (Ends.of_ne (hio p)).bind fun r _ => ?_
            show (p.drop r.2).length ≤ _
            simp
          · refine (strchr_ends _ c).bind_eq fun b' eb' _ => ?_
            split
            · next hb' =>
              have hcc : c = 0x5b#8 ∨ c = 0x7b#8 := by
                have key : ∀ c : Byte, strchr [0x5b#8, 0x7b#8, 0] c = .ok Bool.true → strchr [0x60#8, 0x22#8, 0x27#8, 0] c = .ok Bool.false → c = 0x5b#8 ∨ c = 0x7b#8 := by decide +kernel
                exact key c (by rw [eb', hb']) (by rw [eb]; simp at hb; rw [hb])
              cases p with
              | nil => simp at hc
              | cons d u =>
                rw [rd_cons] at ec
                cases ec
                refine (ihO c u hcc (by simp at h; omega)).bind fun r hr => ?_
                cases r with
                | err e => trivial
                | ok a q =>
                  show (q.drop 1).length ≤ _
                  simp only [Within] at hr
                  simp
                  omega
            · exact Nat.le_refl _
    · rw [parseObject, trim_stop (by rcases hc with rfl | rfl <;> exact ⟨by decide, .inl (by unfold Blank; decide)⟩), except_ok_bind, rd_cons, except_ok_bind]
      rcases hc with rfl | rfl
      · rw [if_neg (by decide), if_pos rfl, drop_one]
        exact ihE [] u (by omega)
      · rw [if_pos rfl, drop_one]
        exact ihM [] u (by omega)
    · rw [parseElements]
      refine (rd_ends p 0).bind fun c hc => ?_
      split
      · trivial
      · refine (trimText_ends false p).bind fun q hq => (rd_ends q 0).bind fun c' hc' => ?_
        split
        · exact hq
        · refine (ihV q (by omega)).bind fun r hr => ?_
          rcases r with e | ⟨⟨k, kids⟩, q'⟩
          · trivial
          · dsimp only [Within] at hr ⊢
            refine (trimText_ends false q').bind fun q2 hq2 => (rd_ends q2 0).bind fun c2 hc2 => ?_
            split
            · refine (ihE _ (q2.drop 1) (by simp; omega)).mono fun r hr2 => ?_
              cases r with
              | err => trivial
              | ok a q3 =>
                simp only [Within, List.length_drop] at hr2 ⊢
                omega
            · split
              · trivial
              · show q2.length ≤ _
                omega
    · rw [parseMembers]
      refine (trimText_ends false p).bind fun q hq => (rd_ends q 0).bind fun c hc => ?_
      split
      · exact hq
      · refine (strchr_ends _ c).bind fun b _ => ?_
        split
        · trivial
        · refine (parseName_ends q).bind fun r hr => ?_
          rcases r with e | ⟨info, q1⟩
          · trivial
          · dsimp only [Within] at hr ⊢
            refine (trimText_ends false (q1.drop 1)).bind fun q2 hq2 => ?_
            simp only [List.length_drop] at hq2
            refine (ihV q2 (by omega)).bind fun r hr2 => ?_
            rcases r with e | ⟨⟨k, kids⟩, q3⟩
            · trivial
            · dsimp only [Within] at hr2 ⊢
              refine (delimiter_ends q3).bind fun f hf => ?_
              have hf' := hf info.style
              generalize f info.style = x at hf'
              obtain ⟨st, stop, q4⟩ := x
              dsimp only at hf' ⊢
              split
              · show q4.length ≤ _
                omega
              · refine (trimText_ends false q4).bind fun q5 hq5 => (rd_ends q5 0).bind fun c5 _ => ?_
                split
                · refine (ihM _ q5 (by omega)).mono fun r hr5 => ?_
                  cases r with
                  | err => trivial
                  | ok a q6 =>
                    simp only [Within] at hr5 ⊢
                    omega
                · show q5.length ≤ _
                  omega

/-- Parsing comes to an end whatever the text is, as long as the reader of numbers does. -/
theorem C136_parse_ends (text : List Byte) : parse io text ≠ .error .diverge := by
  have h : Ends (fun _ => True) (parse io text) := by
    unfold parse
    refine (trimText_ends _ text).bind fun p hp => (rd_ends p 0).bind fun c hc => (strchr_ends _ c).bind fun b _ => ?_
    rw [parseObject]
    have key : ∀ r : Except Fault (Res (Kind ν × List (Node ν))), Ends (fun _ => True) r →
        Ends (fun _ => True) (r >>= fun x => match x with | .err e => Except.ok (Except.error e) | .ok (k, kids) _ => Except.ok (Except.ok (Node.mk none { cfg := !b } k kids))) := by
      intro r hr
      refine hr.bind fun x _ => ?_
      rcases x with e | ⟨⟨k, kids⟩, q⟩ <;> trivial
    refine key _ ((trimText_ends false p).bind fun q hq => (rd_ends q 0).bind fun c' hc' => ?_)
    obtain ⟨-, -, hE, hM⟩ := parse_ends hio (4 * text.length + 3)
    split
    · exact (hM [] (q.drop 1) (by simp; omega)).any
    · split
      · exact (hE [] (q.drop 1) (by simp; omega)).any
      · exact (hM [] q (by omega)).any
  exact h.ne

end
/-! ### The reader of numbers -/

theorem oob_ends {α : Type} {P : α → Prop} : Ends P (.error .oob) := fun h => by cases h

theorem strncmp_ends (before : Bool) : ∀ (n : Nat) (a b : List Byte), Ends (fun _ => True) (strncmp before a b n)
  | 0, a, b => by rw [strncmp]; trivial
  | n + 1, [], b => by rw [strncmp.eq_def]; exact oob_ends
  | n + 1, x :: a, [] => by rw [strncmp.eq_def]; exact oob_ends
  | n + 1, x :: a, y :: b => by
    rw [strncmp]
    split
    · trivial
    · split
      · trivial
      · exact strncmp_ends before n a b

theorem i64_ends (x : Int) : Ends (fun _ => True) (Num.i64 x) := by
  unfold Num.i64
  split
  · trivial
  · exact fun h => by cases h

theorem scanI64Loop_ends (base : Nat) : ∀ (s : List Byte) (r : Int) (n : Nat), Ends (fun _ => True) (Num.scanI64Loop base s r n)
  | [], _, _ => oob_ends
  | c :: s, r, n => by
    rw [Num.scanI64Loop]
    split
    · exact (i64_ends _).bind fun _ _ => (i64_ends _).bind fun r2 _ => scanI64Loop_ends base s r2 (n + 1)
    · trivial

theorem strToI64_ends (s : List Byte) (base : Nat) : Ends (fun _ => True) (Num.strToI64 s base) := by
  have h1 : Ends (fun _ => True) (Num.defaultBase s base) := by
    unfold Num.defaultBase
    split
    · refine (strlen_ends s).any.bind fun n _ => ?_
      split
      · exact (strncmp_ends _ _ _ _).bind fun _ _ => trivial
      · trivial
    · trivial
  have h2 : ∀ b t, Ends (fun _ => True) (Num.skip0x b t) := by
    intro b t
    unfold Num.skip0x
    split
    · exact (strncmp_ends _ _ _ _).bind fun _ _ => trivial
    · trivial
  refine h1.bind fun b _ => ?_
  unfold Num.scanI64
  refine (rd_ends _ _).bind fun c _ => (h2 _ _).bind fun k _ => (scanI64Loop_ends _ _ _ _).bind fun x _ => ?_
  obtain ⟨r, n⟩ := x
  dsimp only
  split
  · exact (i64_ends _).bind fun _ _ => trivial
  · trivial

theorem push_ends (n : Nat) (buf : List Byte) (c : Byte) : Ends (fun _ => True) (Number.push n buf c) := by
  unfold Number.push
  split
  · trivial
  · exact oob_ends

theorem dotDigits_ends : ∀ (e buf : List Byte) (n : Nat), Ends (fun _ => True) (Number.dotDigits e buf n)
  | [], _, _ => oob_ends
  | c :: e, buf, n => by
    rw [Number.dotDigits]
    refine (push_ends _ _ _).bind fun buf' _ => (rd_ends _ _).bind fun d _ => ?_
    split
    · exact dotDigits_ends e buf' (n + 1)
    · trivial

theorem hexDigits_ends : ∀ e buf : List Byte, Ends (fun _ => True) (Number.hexDigits e buf)
  | [], _ => oob_ends
  | c :: e, buf => by
    rw [Number.hexDigits]
    split
    · exact (push_ends _ _ _).bind fun buf' _ => hexDigits_ends e buf'
    · trivial

theorem expDigits_ends : ∀ e buf : List Byte, Ends (fun _ => True) (Number.expDigits e buf)
  | [], _ => oob_ends
  | c :: e, buf => by
    rw [Number.expDigits]
    split
    · exact (push_ends _ _ _).bind fun buf' _ => expDigits_ends e buf'
    · trivial

theorem exponent_ends (e : List Byte) : Ends (fun _ => True) (Number.exponent e) := by
  have h : ∀ e, Ends (fun _ => True) (Number.expText e) := by
    intro e
    unfold Number.expText
    refine (rd_ends _ _).bind fun c _ => ?_
    split
    · exact (expDigits_ends _ _).bind fun _ _ => trivial
    · trivial
  unfold Number.exponent
  refine (rd_ends _ _).bind fun c _ => ?_
  split
  · exact (h _).bind fun _ _ => (strToI64_ends _ _).bind fun _ _ => trivial
  · trivial

theorem mulLoop_ends (f : Int) : ∀ (n : Nat) (v : Int), Ends (fun _ => True) (Number.mulLoop f n v)
  | 0, _ => trivial
  | n + 1, v => (i64_ends _).bind fun w _ => mulLoop_ends f n w

theorem zeros_ends : ∀ (s : List Byte) (n : Nat), Ends (fun _ => True) (Number.zeros s n)
  | [], _ => oob_ends
  | c :: s, n => by
    rw [Number.zeros]
    split
    · exact zeros_ends s (n + 1)
    · trivial

section
variable {ρ : Type} {F : Number.Reals ρ} (hF : ∀ s, F.read s ≠ .error .diverge)
include hF

theorem finish_ends (b e buf : List Byte) (isReal : Bool) (props : Number.Props) (lead : Bool) : Ends (fun _ => True) (Number.finish F b e buf isReal props lead) := by
  unfold Number.finish
  refine (rd_ends _ _).bind fun c _ => ?_
  split
  · trivial
  · refine (exponent_ends _).bind fun x _ => ?_
    obtain ⟨e', exp, neg⟩ := x
    dsimp only
    have h1 : Ends (fun _ => True) (Number.finishReal F buf props lead exp neg) := by
      unfold Number.finishReal
      exact (Ends.of_ne (hF _)).bind fun _ _ => (skip_ends _ _).bind fun _ _ => (wr_ends _ _ _).bind fun _ _ => (zeros_ends _ _).bind fun _ _ =>
        (strToI64_ends _ _).bind fun _ _ => (strToI64_ends _ _).bind fun _ _ => (rd_ends _ _).bind fun _ _ => trivial
    have h2 : Ends (fun _ => True) (Number.finishInt (ρ := ρ) buf props exp neg) := by
      unfold Number.finishInt
      exact (strToI64_ends _ _).bind fun _ _ => (rd_ends _ _).bind fun _ _ => (mulLoop_ends _ _ _).bind fun _ _ => trivial
    split
    · exact h1.bind fun _ _ => trivial
    · exact h2.bind fun _ _ => trivial

theorem fraction_ends (b e buf : List Byte) (props : Number.Props) : Ends (fun _ => True) (Number.fraction F b e buf props) := by
  unfold Number.fraction
  refine (rd_ends _ _).bind fun c _ => ?_
  split
  · refine (dotDigits_ends _ _ _).bind fun x _ => ?_
    obtain ⟨e', buf', n⟩ := x
    dsimp only
    split
    · exact (push_ends _ _ _).bind fun _ _ => finish_ends hF _ _ _ _ _ _
    · exact finish_ends hF _ _ _ _ _ _
  · exact finish_ends hF _ _ _ _ _ _

theorem afterSign_ends (b e buf : List Byte) : Ends (fun _ => True) (Number.afterSign F b e buf) := by
  have hx : Ends (fun _ => True) (Number.hexPrefix e) := by
    unfold Number.hexPrefix
    refine (strncmp_ends _ _ _ _).bind fun _ _ => ?_
    split
    · trivial
    · exact (strncmp_ends _ _ _ _).bind fun _ _ => trivial
  unfold Number.afterSign
  refine (rd_ends _ _).bind fun c _ => ?_
  split
  · exact (push_ends _ _ _).bind fun _ _ => (dotDigits_ends _ _ _).bind fun _ _ => finish_ends hF _ _ _ _ _ _
  · refine hx.bind fun h _ => ?_
    split
    · trivial
    · exact (hexDigits_ends _ _).bind fun _ _ => fraction_ends hF _ _ _ _

/-- The reader of numbers comes to an end if the reader of floating-point numbers does. -/
theorem parseNumber_ends (b : List Byte) : Ends (fun _ => True) (Number.parseNumber F b) := by
  have hf : Ends (fun _ => True) (Number.falsePositive b) := by
    unfold Number.falsePositive
    refine (rd_ends _ _).bind fun c _ => ?_
    split
    · trivial
    · split
      · exact (rd_ends _ _).bind fun _ _ => trivial
      · trivial
  unfold Number.parseNumber
  refine hf.bind fun x _ => ?_
  split
  · trivial
  · refine (rd_ends _ _).bind fun c _ => ?_
    split
    · exact afterSign_ends hF _ _ _
    · split <;> exact afterSign_ends hF _ _ _

end

theorem strToF64_ends (s : List Byte) : Ends (fun _ => True) (ReadReal.strToF64 s) := by
  have h1 : ∀ s, Ends (fun _ => True) (ReadReal.skipSpace s) := by
    intro s
    induction s with
    | nil => exact oob_ends
    | cons c s ih =>
      rw [ReadReal.skipSpace]
      split
      · exact ih
      · trivial
  have h2 : ∀ s, Ends (fun _ => True) (ReadReal.readSign s) := by
    intro s
    cases s with
    | nil => exact oob_ends
    | cons c s => trivial
  have h3 : ∀ s v, Ends (fun _ => True) (ReadReal.wholeLoop s v) := by
    intro s
    induction s with
    | nil => exact fun _ => oob_ends
    | cons c s ih =>
      intro v
      rw [ReadReal.wholeLoop]
      split
      · exact ih _
      · trivial
  have h4 : ∀ s v p, Ends (fun _ => True) (ReadReal.fracLoop s v p) := by
    intro s
    induction s with
    | nil => exact fun _ _ => oob_ends
    | cons c s ih =>
      intro v p
      rw [ReadReal.fracLoop]
      split
      · exact ih _ _
      · trivial
  have h5 : ∀ s v, Ends (fun _ => True) (ReadReal.expLoop s v) := by
    intro s
    induction s with
    | nil => exact fun _ => oob_ends
    | cons c s ih =>
      intro v
      rw [ReadReal.expLoop]
      split
      · exact ih _
      · trivial
  have h6 : ∀ s v, Ends (fun _ => True) (ReadReal.fraction s v) := by
    intro s v
    cases s with
    | nil => exact oob_ends
    | cons c s =>
      rw [ReadReal.fraction]
      split
      · exact h4 _ _ _
      · trivial
  have h7 : ∀ s, Ends (fun _ => True) (ReadReal.exponent s) := by
    intro s
    cases s with
    | nil => exact oob_ends
    | cons c s =>
      rw [ReadReal.exponent]
      split
      · exact (h2 _).bind fun _ _ => (h5 _ _).bind fun _ _ => trivial
      · trivial
  unfold ReadReal.strToF64
  exact (h1 _).bind fun _ _ => (h2 _).bind fun _ _ => (h3 _ _).bind fun _ _ => (h6 _ _).bind fun _ _ => (h7 _).bind fun _ _ => trivial

/-- **C136.** Parsing a JSON text comes to an end, whatever the text is and whether or not it is one: with numbers read by the library's own reader, the
    floating-point ones as IEEE double precision numbers. -/
theorem C136_ends_partial (pf : Print.FloatPrinter) (text : List Byte) : parse (Number.jsonIO Number.doubles pf) text ≠ .error .diverge :=
  C136_parse_ends (fun p => (parseNumber_ends (F := Number.doubles) (fun s => by
    have : Ends (fun _ => True) (Number.doubles.read s) := (strToF64_ends s).bind fun _ _ => trivial
    exact this.ne) p).ne) text

/-! ## Texts that break off -/

/-- A text that begins as it should and then ends, with its terminator, where it must not: within a value, the elements of an array or the members of an object.
    The list holds the whole text: behind the terminator there is nothing. -/
inductive Cut {ν : Type} (io : NumIO ν) : Place → List Byte → Prop where
  /-- where a value should be -/
  | noValue : Cut io .value [0]
  /-- within a string -/
  | string {q : Byte} {s : List Byte} : q ∈ [0x60#8, 0x22#8, 0x27#8] → Text s → (∀ a b, s = a ++ q :: b → a.getLast? = some 0x5c#8) → Cut io .value (q :: s ++ [0])
  /-- behind the members of an object within an object or an array -/
  | unclosed {w t : List Byte} {kids : List (Node ν)} : kids ≠ [] → Blanks w → Spell io (.members kids) t → Cut io .value (0x7b#8 :: w ++ t ++ [0])
  | arr {t : List Byte} : Cut io .elems t → Cut io .value (0x5b#8 :: t)
  | obj {t : List Byte} : Cut io .members t → Cut io .value (0x7b#8 :: t)
  | inElem {w t : List Byte} : Blanks w → Cut io .value t → (t = [0] → w ≠ []) → Cut io .elems (w ++ t)
  | nextElem {w w' t u : List Byte} {k : Kind ν} {kids : List (Node ν)} : Blanks w → Blanks w' → Spell io (.value k kids) t → Cut io .elems u →
      Cut io .elems (w ++ t ++ w' ++ 0x2c#8 :: u)
  /-- within a name in quotes -/
  | inName {w s : List Byte} {q : Byte} : Blanks w → q ∈ [0x22#8, 0x27#8] → Text s → q ∉ s → Cut io .members (w ++ q :: s ++ [0])
  /-- behind a name -/
  | afterName {w0 nt w name : List Byte} {ns : NameStyle} : Blanks w0 → NameText ns name nt → Blanks w → Cut io .members (w0 ++ nt ++ w ++ [0])
  | inMember {w0 nt w w' t name : List Byte} {asg : Byte} {ns : NameStyle} : Blanks w0 → NameText ns name nt → Blanks w → asg ∈ [0x3a#8, 0x3d#8, 0x7c#8] → Blanks w' →
      Cut io .value t → Cut io .members (w0 ++ nt ++ w ++ asg :: w' ++ t)
  | nextMember {w0 nt w w' t a u name : List Byte} {asg d : Byte} {ns : NameStyle} {k : Kind ν} {kids : List (Node ν)} : Blanks w0 → NameText ns name nt → Blanks w →
      asg ∈ [0x3a#8, 0x3d#8, 0x7c#8] → Blanks w' → Spell io (.value k kids) t → Inline a → d ∈ [0x2c#8, 0x7c#8, 0x0a#8] → Cut io .members u →
      Cut io .members (w0 ++ nt ++ w ++ asg :: w' ++ t ++ a ++ d :: u)

/-- What the parser does with it: it reads outside, or goes on behind the end of the text. -/
def Leaves {ν : Type} (io : NumIO ν) : Place → List Byte → Prop
  | .value, t => (∃ c u, t = c :: u ∧ Stop Bool.false c ∧ c ≠ 0x5d#8 ∧ (c = 0 → t = [0])) ∧
      ∀ n, 3 * t.length ≤ n → parseValue io n t = .error .oob ∨ ∃ a, parseValue io n t = .ok (.ok a [])
  | .elems, t => ∀ n done, 3 * t.length + 1 ≤ n → parseElements io n done t = .error .oob
  | .members, t => ∃ w c v, t = w ++ c :: v ∧ Blanks w ∧ Stop Bool.false c ∧ c ≠ 0 ∧
      ∀ n done, 3 * t.length + 1 ≤ n → parseMembers io n done (c :: v) = .error .oob

theorem trimText_nil (b : Bool) : trimText b [] = .error .oob := rfl

theorem delimiter_nil : delimiter [] = .error .oob := rfl

theorem except_error_bind {α β : Type} (e : Fault) (f : α → Except Fault β) : (Except.error e >>= f) = .error e := rfl

theorem skipLiteral_all {q : Byte} (h0 : q ≠ 0) {s : List Byte} (hs : Text s) (hq : ∀ a b, s = a ++ q :: b → a.getLast? = some 0x5c#8) :
    skipLiteral q (s ++ [0]) = .ok s.length := by
  obtain ⟨k, e3, h1, h2, h3⟩ := C70_skip_literal (c := q) h0 hs []
  have hk : k = s.length := by
    rcases Nat.lt_or_ge k s.length with hlt | hge
    · exfalso
      obtain ⟨h4, h5⟩ := h3 hlt
      have e : s = s.take k ++ q :: s.drop (k + 1) := by
        rw [List.getElem?_eq_some_iff] at h4
        obtain ⟨hlt', h4⟩ := h4
        rw [← h4, List.getElem_cons_drop, List.take_append_drop]
      have h6 := hq _ _ e
      cases k with
      | zero => simp at h6
      | succ k =>
        rcases h5 with h5 | h5
        · cases h5
        · apply h5
          rw [List.getLast?_eq_getElem?, List.length_take, Nat.min_eq_left (by omega)] at h6
          rw [List.getElem?_take_of_lt (by omega)] at h6
          exact h6
    · omega
  rw [e3, hk]

theorem controlSkip_all {q : Byte} {s : List Byte} (hs : Text s) (hq : q ∉ s) (hq0 : q ≠ 0) : ∀ prev, controlSkip q prev (s ++ [0]) = .ok s.length := by
  induction s with
  | nil =>
    intro prev
    rw [List.nil_append, controlSkip, if_neg (by simp), if_neg (fun h => hq0 h.2.symm)]
    rfl
  | cons x s ih =>
    intro prev
    have hx := Text.cons.1 hs
    rw [List.cons_append, controlSkip, if_pos ⟨hx.1, fun h => hq (by simp [h])⟩, ih hx.2 (fun h => hq (by simp [h])), except_ok_bind]
    rfl

theorem isAssign_end : isAssign 0 = .ok Bool.true := by decide +kernel

theorem stop_end : Stop Bool.false 0 := ⟨by decide, .inl (by unfold Blank; decide)⟩

theorem finishName_end (s w : List Byte) (hw : Blanks w) (e : Nat) (b : List Byte) (he : b.drop e = w ++ [0]) (len : Nat) (sty : NameStyle) {b' : List Byte} {ns' : NameStyle}
    (hc : cutName b len sty = .ok (b', ns')) (hv : validateName b' = .ok Bool.true) : ∃ info, finishName b len e sty = .ok (.ok info [0]) := by
  unfold finishName
  rw [he, trim_blanks hw stop_end, except_ok_bind, rd_cons, except_ok_bind, isAssign_end, except_ok_bind, if_neg (by simp)]
  dsimp only
  rw [hc, except_ok_bind]
  dsimp only
  rw [hv, except_ok_bind, if_neg (by simp)]
  exact ⟨_, rfl⟩

/-- The text ends behind a name. -/
theorem parseName_end {ns : NameStyle} {name nt : List Byte} (h : NameText ns name nt) {w : List Byte} (hw : Blanks w) :
    ∃ info, parseName (nt ++ w ++ [0]) = .ok (.ok info [0]) := by
  cases h with
  | double hb he =>
    unfold parseName
    have e1 : (0x22#8 :: name ++ [0x22#8] ++ w ++ [0]) = 0x22#8 :: (name ++ 0x22#8 :: (w ++ [0])) := by simp
    rw [e1, rd_cons, except_ok_bind, if_pos (.inl rfl)]
    dsimp only
    rw [drop_one, controlSkip_double name 0x22#8 hb.1 (fun a b h => ?_) ?_, except_ok_bind, wr_at, except_ok_bind]
    · exact finishName_end name w hw _ _ (drop_past _ _ _) _ _ rfl (validateName_ok hb.1 he _)
    · cases name with
      | nil => simp
      | cons x a => simpa using hb.2.2
    · have := hb.2.1 a b h
      cases a with
      | nil => simp at this
      | cons x a => simpa using this
  | single ht hn he =>
    unfold parseName
    have e1 : (0x27#8 :: name ++ [0x27#8] ++ w ++ [0]) = 0x27#8 :: (name ++ 0x27#8 :: (w ++ [0])) := by simp
    rw [e1, rd_cons, except_ok_bind, if_pos (.inr rfl)]
    dsimp only
    rw [drop_one, controlSkip_single ht hn, except_ok_bind, wr_at, except_ok_bind]
    exact finishName_end name w hw _ _ (drop_past _ _ _) _ _ rfl (validateName_ok ht he _)
  | @bare c s hc hs =>
    unfold parseName
    have hcq : ¬ (c = 0x22#8 ∨ c = 0x27#8) := by
      rintro (rfl | rfl) <;> exact absurd hc (by decide)
    obtain ⟨y, v, hv, hy⟩ : ∃ y v, w ++ [0] = y :: v ∧ ¬ (Chars.isAlphanumeric y = Bool.true ∨ y = 0x5f#8) := by
      cases w with
      | nil => exact ⟨0, [], rfl, by decide⟩
      | cons y w => exact ⟨y, w ++ [0], rfl, blank_nameEnd (hw y (by simp))⟩
    have e1 : (c :: s ++ w ++ [0]) = c :: (s ++ y :: v) := by rw [← hv]; simp
    rw [e1, rd_cons, except_ok_bind, if_neg hcq, if_pos hc]
    rw [drop_one, bareLen_ok hs hy, except_ok_bind]
    have e2 : (c :: (s ++ y :: v)).drop (s.length + 1) = w ++ [0] := by
      rw [List.drop_succ_cons, List.drop_left, hv]
    have e3 : rd (c :: (s ++ y :: v)) (s.length + 1) = .ok y := by
      rw [rd_ok (by simp)]
      simp
    have e4 : wr (c :: (s ++ y :: v)) (s.length + 1) 0 = .ok (c :: s ++ 0 :: v) := by
      have := wr_at (c :: s) y 0 v
      simpa using this
    have ht : Text (c :: s) := by
      intro x hx
      have key : ∀ x : Byte, ((Chars.isAlphanumeric x = Bool.true ∨ x = 0x5f#8) ∨ (Chars.isAlpha x = Bool.true ∨ x = 0x5f#8 ∨ x = 0x24#8)) → x ≠ 0 := by decide +kernel
      rcases List.mem_cons.1 hx with rfl | hx
      · exact key _ (.inr hc)
      · exact key _ (.inl (hs x hx))
    have he : Escapes (c :: s) := by
      intro a b hab
      exfalso
      have key : ∀ x : Byte, ((Chars.isAlphanumeric x = Bool.true ∨ x = 0x5f#8) ∨ (Chars.isAlpha x = Bool.true ∨ x = 0x5f#8 ∨ x = 0x24#8)) → x ≠ 0x5c#8 := by decide +kernel
      have hx : 0x5c#8 ∈ c :: s := by rw [hab]; simp
      rcases List.mem_cons.1 hx with hx | hx
      · exact key _ (.inr hc) hx.symm
      · exact key _ (.inl (hs _ hx)) rfl
    by_cases hy0 : y = 0
    · subst hy0
      refine finishName_end (c :: s) w hw _ _ e2 _ _ (b' := c :: s ++ 0 :: v) (ns' := .doubleQuote) ?_ (validateName_ok ht he v)
      rw [cutName, if_pos rfl, e3, except_ok_bind, if_neg (by simp)]
      rfl
    · refine finishName_end (c :: s) w hw _ _ e2 _ _ (b' := c :: s ++ 0 :: v) (ns' := .noQuotes) ?_ (validateName_ok ht he v)
      rw [cutName, if_pos rfl, e3, except_ok_bind, if_pos hy0, e4, except_ok_bind]

/-- The head of a member whose value goes on behind the end of the text. -/
theorem member_cut {ν : Type} (io : NumIO ν) {nt w w' name : List Byte} {asg : Byte} {ns : NameStyle} (hnt : NameText ns name nt) (hw : Blanks w)
    (ha : asg ∈ [0x3a#8, 0x3d#8, 0x7c#8]) (hw' : Blanks w') {d : Byte} (hd : Stop Bool.false d) (v : List Byte) (n : Nat) (done : List (Node ν))
    (h : parseValue io n (d :: v) = .error .oob ∨ ∃ a, parseValue io n (d :: v) = .ok (.ok a [])) :
    parseMembers io (n + 1) done (nt ++ w ++ asg :: w' ++ d :: v) = .error .oob := by
  obtain ⟨c, u, hcu, hc1, hc2, hc3⟩ := name_begins hnt
  have e1 : nt ++ w ++ asg :: w' ++ d :: v = c :: (u ++ (w ++ asg :: (w' ++ d :: v))) := by rw [hcu]; simp
  have e2 : c :: (u ++ (w ++ asg :: (w' ++ d :: v))) = nt ++ w ++ asg :: (w' ++ d :: v) := by rw [hcu]; simp
  rw [e1, parseMembers, trim_stop hc1, except_ok_bind, rd_cons, except_ok_bind, if_neg hc2, hc3, except_ok_bind, if_neg (by simp), e2, parseName_ok hnt hw ha, except_ok_bind]
  dsimp only
  rw [drop_one, trim_blanks hw' hd, except_ok_bind]
  rcases h with h | ⟨⟨k, kids⟩, h⟩
  · rw [h, except_error_bind]
  · rw [h, except_ok_bind]
    dsimp only
    rw [delimiter_nil, except_error_bind]

theorem leaves {ν : Type} {io : NumIO ν} {p : Place} {t : List Byte} (h : Cut io p t) : Leaves io p t := by
  have st : ∀ c, c ∈ [0x60#8, 0x22#8, 0x27#8, 0x5b#8, 0x7b#8] → Stop Bool.false c ∧ c ≠ 0x5d#8 ∧ c ≠ 0 := by
    intro c hc
    exact begins_stop (by left; revert hc; simp; rintro (rfl | rfl | rfl | rfl | rfl) <;> simp)
  induction h with
  | noValue =>
    refine ⟨⟨0, [], rfl, stop_end, by decide, fun _ => rfl⟩, fun n hn => .inl ?_⟩
    obtain ⟨n, rfl⟩ : ∃ m, n = m + 1 := ⟨n - 1, by simp at hn; omega⟩
    have h1 : strchr [0x60#8, 0x22#8, 0x27#8, 0] 0 = .ok Bool.true := by decide
    rw [parseValue, rd_cons, except_ok_bind, h1, except_ok_bind, if_pos rfl]
    rfl
  | @string q s hq hs hn =>
    have hq' := st q (by revert hq; simp; rintro (rfl | rfl | rfl) <;> simp)
    refine ⟨⟨q, s ++ [0], rfl, hq'.1, hq'.2.1, fun h => absurd h hq'.2.2⟩, fun n hn' => .inr ⟨(.str (q == 0x60#8) s, []), ?_⟩⟩
    obtain ⟨n, rfl⟩ : ∃ m, n = m + 1 := ⟨n - 1, by simp at hn'; omega⟩
    have h1 : strchr [0x60#8, 0x22#8, 0x27#8, 0] q = .ok Bool.true := by
      simp only [List.mem_cons, List.not_mem_nil, or_false] at hq
      rcases hq with rfl | rfl | rfl <;> decide
    rw [List.cons_append, parseValue, rd_cons, except_ok_bind, h1, except_ok_bind, if_pos rfl]
    unfold parseQuoted
    rw [drop_one]
    dsimp only
    rw [skipLiteral_all hq'.2.2 hs hn, except_ok_bind, wr_at, except_ok_bind, strlen_to hs, except_ok_bind]
    simp
  | @unclosed w t kids hk hw hs =>
    have hq' := st 0x7b#8 (by simp)
    refine ⟨⟨0x7b#8, w ++ t ++ [0], rfl, hq'.1, hq'.2.1, fun h => absurd h hq'.2.2⟩, fun n hn => .inr ?_⟩
    obtain ⟨n, rfl⟩ : ∃ m, n = m + 1 + 1 := ⟨n - 2, by simp at hn; omega⟩
    have h1 : strchr [0x60#8, 0x22#8, 0x27#8, 0] 0x7b#8 = .ok Bool.false := by decide
    have h2 : ∀ u, startsWord (0x7b#8 :: u) = .ok Bool.false := fun u => rfl
    have h3 : strchr [0x5b#8, 0x7b#8, 0] 0x7b#8 = .ok Bool.true := by decide
    obtain ⟨ks, e, hks⟩ := reads hs w 0 [] n [] hw (.inr ⟨rfl, hk⟩) (by simp at hn; omega)
    refine ⟨(.obj, [] ++ ks), ?_⟩
    rw [List.cons_append, List.cons_append, parseValue, rd_cons, except_ok_bind, h1, except_ok_bind, if_neg (by simp), h2, except_ok_bind, if_neg (by simp), if_neg (by decide), h3, except_ok_bind, if_pos rfl,
      parseObject, trim_stop hq'.1, except_ok_bind, rd_cons, except_ok_bind, if_pos rfl, drop_one, e, except_ok_bind]
    rfl
  | @arr t hb ih =>
    have hq' := st 0x5b#8 (by simp)
    refine ⟨⟨0x5b#8, t, rfl, hq'.1, hq'.2.1, fun h => absurd h hq'.2.2⟩, fun n hn => .inl ?_⟩
    obtain ⟨n, rfl⟩ : ∃ m, n = m + 1 + 1 := ⟨n - 2, by simp at hn; omega⟩
    have h1 : strchr [0x60#8, 0x22#8, 0x27#8, 0] 0x5b#8 = .ok Bool.false := by decide
    have h2 : ∀ u, startsWord (0x5b#8 :: u) = .ok Bool.false := fun u => rfl
    have h3 : strchr [0x5b#8, 0x7b#8, 0] 0x5b#8 = .ok Bool.true := by decide
    rw [parseValue, rd_cons, except_ok_bind, h1, except_ok_bind, if_neg (by simp), h2, except_ok_bind, if_neg (by simp), if_neg (by decide), h3, except_ok_bind, if_pos rfl,
      parseObject, trim_stop hq'.1, except_ok_bind, rd_cons, except_ok_bind, if_neg (by decide), if_pos rfl, drop_one, ih n [] (by simp at hn; omega), except_error_bind]
  | @obj t hb ih =>
    have hq' := st 0x7b#8 (by simp)
    refine ⟨⟨0x7b#8, t, rfl, hq'.1, hq'.2.1, fun h => absurd h hq'.2.2⟩, fun n hn => .inl ?_⟩
    obtain ⟨n, rfl⟩ : ∃ m, n = m + 1 + 1 := ⟨n - 2, by simp at hn; omega⟩
    have h1 : strchr [0x60#8, 0x22#8, 0x27#8, 0] 0x7b#8 = .ok Bool.false := by decide
    have h2 : ∀ u, startsWord (0x7b#8 :: u) = .ok Bool.false := fun u => rfl
    have h3 : strchr [0x5b#8, 0x7b#8, 0] 0x7b#8 = .ok Bool.true := by decide
    obtain ⟨w, c, v, rfl, hw, hc, -, ih⟩ := ih
    rw [parseValue, rd_cons, except_ok_bind, h1, except_ok_bind, if_neg (by simp), h2, except_ok_bind, if_neg (by simp), if_neg (by decide), h3, except_ok_bind, if_pos rfl,
      parseObject, trim_stop hq'.1, except_ok_bind, rd_cons, except_ok_bind, if_pos rfl, drop_one, parseMembers_blanks io hw hc, ih n [] (by simp at hn ⊢; omega), except_error_bind]
  | @inElem w t hw hb hne ih =>
    intro n done hn
    obtain ⟨n, rfl⟩ : ∃ m, n = m + 1 := ⟨n - 1, by omega⟩
    obtain ⟨⟨c, u, rfl, h1, h2, h3⟩, ih⟩ := ih
    have e1 := ih n (by simp at hn ⊢; omega)
    have e0 : ∃ z, rd (w ++ c :: u) 0 = .ok z ∧ z ≠ 0 := by
      cases w with
      | nil => exact ⟨c, rfl, fun h => absurd rfl (hne (h3 h))⟩
      | cons z w => exact ⟨z, rfl, (blank_ne (hw z (by simp))).2⟩
    obtain ⟨z, e0, hz⟩ := e0
    rw [parseElements, e0, except_ok_bind, if_neg hz, trim_blanks hw h1, except_ok_bind, rd_cons, except_ok_bind, if_neg h2]
    rcases e1 with e1 | ⟨⟨k, kids⟩, e1⟩
    · rw [e1, except_error_bind]
    · rw [e1, except_ok_bind]
      dsimp only
      rw [trimText_nil, except_error_bind]
  | @nextElem w w' t u k kids hw hw' hs hb ih =>
    intro n done hn
    obtain ⟨n, rfl⟩ : ∃ m, n = m + 1 := ⟨n - 1, by omega⟩
    obtain ⟨ks, hks, e1⟩ := elem_read hw hw' hs (reads hs) (.inl rfl) u n (by simp at hn; omega) done
    rw [e1, if_pos rfl]
    exact ih n _ (by simp at hn; omega)
  | @inName w s q hw hq hs hn =>
    have hq' := st q (by revert hq; simp; rintro (rfl | rfl) <;> simp)
    refine ⟨w, q, s ++ [0], by simp, hw, hq'.1, hq'.2.2, fun n done hn' => ?_⟩
    obtain ⟨n, rfl⟩ : ∃ m, n = m + 1 := ⟨n - 1, by omega⟩
    have h1 : q ≠ 0x7d#8 ∧ strchr [0x7d#8, 0x5d#8, 0] q = .ok Bool.false ∧ (q = 0x22#8 ∨ q = 0x27#8) := by
      simp only [List.mem_cons, List.not_mem_nil, or_false] at hq
      rcases hq with rfl | rfl <;> decide
    have e : parseName (q :: (s ++ [0])) = .error .oob := by
      unfold parseName
      rw [rd_cons, except_ok_bind, if_pos h1.2.2]
      dsimp only
      rw [drop_one, controlSkip_all hs hn hq'.2.2, except_ok_bind, wr_at, except_ok_bind]
      unfold finishName
      rw [drop_past, trimText_nil, except_error_bind]
    rw [parseMembers, trim_stop hq'.1, except_ok_bind, rd_cons, except_ok_bind, if_neg h1.1, h1.2.1, except_ok_bind, if_neg (by simp), e, except_error_bind]
  | @afterName w0 nt w name ns h0 hnt hw =>
    obtain ⟨c, u, hcu, hc1, hc2, hc3⟩ := name_begins hnt
    refine ⟨w0, c, u ++ w ++ [0], by rw [hcu]; simp, h0, hc1, ?_, ?_⟩
    · rintro rfl; exact absurd hc3 (by decide)
    · intro n done hn
      obtain ⟨n, rfl⟩ : ∃ m, n = m + 1 := ⟨n - 1, by omega⟩
      obtain ⟨info, e⟩ := parseName_end hnt hw
      have e2 : c :: (u ++ w ++ [0]) = nt ++ w ++ [0] := by rw [hcu]; simp
      rw [parseMembers, trim_stop hc1, except_ok_bind, rd_cons, except_ok_bind, if_neg hc2, hc3, except_ok_bind, if_neg (by simp), e2, e, except_ok_bind]
      dsimp only
      rw [drop_one, trimText_nil, except_error_bind]
  | @inMember w0 nt w w' t name asg ns h0 hnt hw ha hw' hb ih =>
    obtain ⟨c, u, hcu, hc1, hc2, hc3⟩ := name_begins hnt
    refine ⟨w0, c, u ++ w ++ asg :: w' ++ t, by rw [hcu]; simp, h0, hc1, ?_, ?_⟩
    · rintro rfl; exact absurd hc3 (by decide)
    · intro n done hn
      obtain ⟨n, rfl⟩ : ∃ m, n = m + 1 := ⟨n - 1, by omega⟩
      obtain ⟨⟨d, v, rfl, hd, -⟩, ih⟩ := ih
      have := member_cut io hnt hw ha hw' hd v n done (ih n (by simp at hn ⊢; omega))
      rw [hcu] at this
      simpa using this
  | @nextMember w0 nt w w' t a u' name asg d ns k kids h0 hnt hw ha hw' hs hi hd hb ih =>
    obtain ⟨c, u, hcu, hc1, hc2, hc3⟩ := name_begins hnt
    refine ⟨w0, c, u ++ w ++ asg :: w' ++ t ++ a ++ d :: u', by rw [hcu]; simp, h0, hc1, ?_, ?_⟩
    · rintro rfl; exact absurd hc3 (by decide)
    · intro n done hn
      obtain ⟨n, rfl⟩ : ∃ m, n = m + 1 := ⟨n - 1, by simp at hn; omega⟩
      have hfd : Follow d := by
        simp only [List.mem_cons, List.not_mem_nil, or_false] at hd
        rcases hd with rfl | rfl | rfl
        · right; simp
        · right; simp
        · left; unfold Blank; decide
      obtain ⟨y, v, hv, hy⟩ := head_follow (fun c h => (hi c h).1) hfd u'
      obtain ⟨ks, hks, em⟩ := member_read (w0 := []) (by simp [Blanks]) hnt hw ha hw' hs (reads hs) hy (v := v) n (by simp at hn; omega) done
      have e1 : c :: (u ++ w ++ asg :: w' ++ t ++ a ++ d :: u') = [] ++ (nt ++ w ++ asg :: w' ++ t) ++ y :: v := by rw [← hv, hcu]; simp
      obtain ⟨f, ef, hf⟩ := delimiter_ok hi hd u' (nameStyle ns w asg)
      rw [e1, em, ← hv, ef, except_ok_bind, hf]
      dsimp only
      obtain ⟨w1, z, x, rfl, hw1, hz, hz0, ih⟩ := ih
      rw [if_neg (by simp), trim_blanks hw1 hz, except_ok_bind, rd_cons, except_ok_bind, if_pos hz0]
      exact ih n _ (by simp at hn ⊢; omega)

/-- **C136 fails** in the rest: a document that is cut off - at any depth, behind any number of complete members and elements, within a string or a name, behind a name,
    where a value should be, or behind the members of an inner object - makes the parser read behind the end of the text. -/
theorem C136_cut_reads_outside {ν : Type} {io : NumIO ν} {w t : List Byte} (hw : Blanks w) :
    (Cut io .elems t → parse io (w ++ 0x5b#8 :: t) = .error .oob) ∧ (Cut io .members t → parse io (w ++ 0x7b#8 :: t) = .error .oob) := by
  have h3 : ∀ c, ∃ b, strchr [0x7b#8, 0x5b#8, 0] c = .ok b := by
    intro c
    obtain ⟨r, e, -⟩ := firstOcc_ok (s := [0x7b#8, 0x5b#8]) (by simp [Text]) [] c
    exact ⟨r.isSome, by rw [strchr, show [0x7b#8, 0x5b#8, 0] = [0x7b#8, 0x5b#8] ++ 0 :: [] from rfl, e]; rfl⟩
  have hst : ∀ c : Byte, c = 0x7b#8 ∨ c = 0x5b#8 → Stop Bool.false c := by rintro c (rfl | rfl) <;> exact ⟨by decide, .inl (by unfold Blank; decide)⟩
  constructor
  · intro h
    obtain ⟨w2, hw2, -, e1⟩ := trim_first hw (hst 0x5b#8 (.inr rfl)) t
    obtain ⟨d, v, hdv⟩ : ∃ d v, w2 ++ 0x5b#8 :: t = d :: v := by cases w2 <;> exact ⟨_, _, rfl⟩
    obtain ⟨b, hb⟩ := h3 d
    rw [parse, e1, except_ok_bind, hdv, rd_cons, except_ok_bind, hb, except_ok_bind, parseObject, ← hdv, trim_blanks hw2 (hst 0x5b#8 (.inr rfl)), except_ok_bind, rd_cons, except_ok_bind,
      if_neg (by decide), if_pos rfl, drop_one, leaves h (4 * (w ++ 0x5b#8 :: t).length + 3) [] (by simp; omega), except_error_bind]
  · intro h
    obtain ⟨w2, hw2, -, e1⟩ := trim_first hw (hst 0x7b#8 (.inl rfl)) t
    obtain ⟨d, v, hdv⟩ : ∃ d v, w2 ++ 0x7b#8 :: t = d :: v := by cases w2 <;> exact ⟨_, _, rfl⟩
    obtain ⟨b, hb⟩ := h3 d
    obtain ⟨w1, z, x, rfl, hw1, hz, hz0, ih⟩ := leaves h
    rw [parse, e1, except_ok_bind, hdv, rd_cons, except_ok_bind, hb, except_ok_bind, parseObject, ← hdv, trim_blanks hw2 (hst 0x7b#8 (.inl rfl)), except_ok_bind, rd_cons, except_ok_bind,
      if_pos rfl, drop_one, parseMembers_blanks io hw1 hz, ih (4 * (w ++ 0x7b#8 :: (w1 ++ z :: x)).length + 3) [] (by simp; omega), except_error_bind]

/-- **C136 fails** for comments too: a line comment that runs to the end of the text makes the parser follow a NULL pointer. -/
theorem C136_comment_to_the_end {ν : Type} (io : NumIO ν) {w s : List Byte} (hw : Inline w) (hs : Text s) (hn : 0x0a#8 ∉ s) (rest : List Byte) :
    parse io (w ++ 0x2f#8 :: 0x2f#8 :: s ++ 0 :: rest) = .error .ub := by
  have hsk : ∀ s : List Byte, Text s → 0x0a#8 ∉ s → skip 0x0a#8 (s ++ 0 :: rest) = .ok s.length := by
    intro s
    induction s with
    | nil => intro _ _; rfl
    | cons x s ih =>
      intro ht hn
      have hx := Text.cons.1 ht
      rw [List.cons_append, skip, if_pos ⟨hx.1, fun h => hn (by simp [h])⟩, ih hx.2 (fun h => hn (by simp [h])), except_ok_bind]
      rfl
  have hround : trimRound Bool.true (0x2f#8 :: 0x2f#8 :: s ++ 0 :: rest) = .ok (.inr (0 :: rest)) := by
    unfold trimRound
    have h1 : hasPrefix (0x2f#8 :: 0x2f#8 :: s ++ 0 :: rest) [0x2f#8, 0x2f#8, 0] = .ok Bool.true := by
      simp [hasPrefix, hasPrefix_nil]
    have ht : Text (0x2f#8 :: 0x2f#8 :: s) := Text.cons.2 ⟨by decide, Text.cons.2 ⟨by decide, hs⟩⟩
    rw [h1, except_ok_bind, if_pos rfl, hsk _ ht (by simp; exact hn), except_ok_bind, List.drop_left]
  have key : ∀ (w : List Byte), Inline w → ∀ n, w.length + 1 ≤ n → jtrim Bool.true n (w ++ (0x2f#8 :: 0x2f#8 :: s ++ 0 :: rest)) = .error .ub := by
    intro w
    induction w with
    | nil =>
      intro _ n hn
      obtain ⟨n, rfl⟩ : ∃ m, n = m + 1 := ⟨n - 1, by omega⟩
      rw [List.nil_append, jtrim, hround, except_ok_bind]
      rfl
    | cons c w ih =>
      intro hw n hn
      obtain ⟨n, rfl⟩ : ∃ m, n = m + 1 := ⟨n - 1, by omega⟩
      have hx := hw c (by simp)
      have e : c :: w ++ (0x2f#8 :: 0x2f#8 :: s ++ 0 :: rest) = c :: (w ++ (0x2f#8 :: 0x2f#8 :: s ++ 0 :: rest)) := rfl
      rw [e, jtrim, trimRound_other (blank_ne hx.1).1, if_neg, except_ok_bind]
      · have : stepOn (c :: (w ++ (0x2f#8 :: 0x2f#8 :: s ++ 0 :: rest))) = .ok (some (w ++ (0x2f#8 :: 0x2f#8 :: s ++ 0 :: rest))) := by rw [stepOn, if_pos (blank_ne hx.1).2]
        dsimp only
        rw [this, except_ok_bind]
        exact ih (fun y hy => hw y (by simp [hy])) n (by simp at hn; omega)
      · rintro (⟨h, -⟩ | h)
        · exact hx.2 h
        · rw [← Bool.not_eq_true, isSpace_iff] at h; exact h hx.1
  have e0 : w ++ 0x2f#8 :: 0x2f#8 :: s ++ 0 :: rest = w ++ (0x2f#8 :: 0x2f#8 :: s ++ 0 :: rest) := by simp
  rw [parse, e0, trimText, key w hw _ (by simp), except_error_bind]

/-- **C136 fails**: a name followed by its assignment character and the end of the object is accepted, without a value. -/
theorem C136_missing_value_accepted {ν : Type} (io : NumIO ν) {ns : NameStyle} {name nt w : List Byte} (hnt : NameText ns name nt) (hw : Blanks w) (rest : List Byte) :
    ∃ r, parse io (0x7b#8 :: nt ++ 0x3a#8 :: w ++ 0x7d#8 :: rest) = .ok (.ok r) ∧ r.plain = .mk none {} .obj [.mk (some name) {} .unset []] := by
  obtain ⟨c, u, hcu, hc1, hc2, hc3⟩ := name_begins hnt
  have hst : Stop Bool.false 0x7b#8 := ⟨by decide, .inl (by unfold Blank; decide)⟩
  have hst2 : Stop Bool.false 0x7d#8 := ⟨by decide, .inl (by unfold Blank; decide)⟩
  have h1 : strchr [0x7b#8, 0x5b#8, 0] 0x7b#8 = .ok Bool.true := by decide
  have e0 : 0x7b#8 :: nt ++ 0x3a#8 :: w ++ 0x7d#8 :: rest = 0x7b#8 :: c :: (u ++ (0x3a#8 :: (w ++ 0x7d#8 :: rest))) := by rw [hcu]; simp
  have e1 : c :: (u ++ (0x3a#8 :: (w ++ 0x7d#8 :: rest))) = nt ++ [] ++ 0x3a#8 :: (w ++ 0x7d#8 :: rest) := by rw [hcu]; simp
  have e2 : trimText Bool.true (0x7b#8 :: c :: (u ++ (0x3a#8 :: (w ++ 0x7d#8 :: rest)))) = .ok (0x7b#8 :: c :: (u ++ (0x3a#8 :: (w ++ 0x7d#8 :: rest)))) :=
    trim_inline (w := []) (by simp [Inline]) ⟨by decide, .inl (by unfold Blank; decide)⟩ _
  have e3 : trimText Bool.true (0x7d#8 :: rest) = .ok (0x7d#8 :: rest) := trim_inline (w := []) (by simp [Inline]) ⟨by decide, .inl (by unfold Blank; decide)⟩ _
  have hv : ∀ n, parseValue io (n + 1) (0x7d#8 :: rest) = .ok (.ok (.unset, []) (0x7d#8 :: rest)) := by
    intro n
    have h1 : strchr [0x60#8, 0x22#8, 0x27#8, 0] 0x7d#8 = .ok Bool.false := by decide
    have h2 : startsWord (0x7d#8 :: rest) = .ok Bool.false := rfl
    have h3 : strchr [0x5b#8, 0x7b#8, 0] 0x7d#8 = .ok Bool.false := by decide
    rw [parseValue, rd_cons, except_ok_bind, h1, except_ok_bind, if_neg (by simp), h2, except_ok_bind, if_neg (by simp), if_neg (by decide), h3, except_ok_bind, if_neg (by simp)]
  have hd : isDelim 0x7d#8 = .ok Bool.false := by decide +kernel
  obtain ⟨m, hm⟩ : ∃ m, 4 * (0x7b#8 :: c :: (u ++ (0x3a#8 :: (w ++ 0x7d#8 :: rest)))).length + 3 = m + 1 + 1 := ⟨4 * (0x7b#8 :: c :: (u ++ (0x3a#8 :: (w ++ 0x7d#8 :: rest)))).length + 1, by omega⟩
  refine ⟨.mk none { cfg := Bool.false } .obj [.mk (some name) (nameStyle ns [] 0x3a#8) .unset []], ?_, rfl⟩
  rw [e0, parse, e2, except_ok_bind, rd_cons, except_ok_bind, h1, except_ok_bind, parseObject, trim_stop hst, except_ok_bind, rd_cons, except_ok_bind, if_pos rfl, drop_one, hm,
    parseMembers, trim_stop hc1, except_ok_bind, rd_cons, except_ok_bind, if_neg hc2, hc3, except_ok_bind, if_neg (by simp), e1, parseName_ok hnt (by simp [Blanks]) (by simp), except_ok_bind]
  dsimp only
  rw [drop_one, trim_blanks hw hst2, except_ok_bind, hv, except_ok_bind]
  dsimp only
  unfold delimiter
  rw [e3, except_ok_bind, rd_cons, except_ok_bind, hd, except_ok_bind, if_neg (by simp), except_ok_bind]
  dsimp only
  rw [if_neg (by simp), trim_stop hst2, except_ok_bind, rd_cons, except_ok_bind, if_pos (by decide), parseMembers, trim_stop hst2, except_ok_bind, rd_cons, except_ok_bind, if_pos rfl, except_ok_bind]
  rfl

/-! ## The hypotheses are met -/

/-- `{"a": [true, {b = nul`...: any text of this kind, whatever it is cut to. -/
example (pf : Print.FloatPrinter) : parse (Number.jsonIO Number.doubles pf) [0x7b#8, 0x22#8, 0x61#8, 0x22#8, 0x3a#8, 0x5b#8, 0x2d#8, 0x31#8, 0x2e#8, 0x35#8, 0x65#8, 0x39#8, 0x39#8, 0x2f#8, 0x2f#8, 0] ≠ .error .diverge :=
  C136_ends_partial pf _

/-- `{"a": [true, {b ` -/
example : parse noNumbers ([] ++ 0x7b#8 :: [0x22#8, 0x61#8, 0x22#8, 0x3a#8, 0x20#8, 0x5b#8, 0x74#8, 0x72#8, 0x75#8, 0x65#8, 0x2c#8, 0x20#8, 0x7b#8, 0x62#8, 0x20#8, 0]) = .error .oob := by
  have hb : Blanks [0x20#8] := by intro c hc; simp at hc; subst hc; unfold Blank; decide
  have h0 : Blanks [] := by simp [Blanks]
  refine (C136_cut_reads_outside h0).2 (.inMember (nt := [0x22#8, 0x61#8, 0x22#8]) (w0 := []) (w := []) (w' := [0x20#8]) (asg := 0x3a#8) h0
    (.double (s := [0x61#8]) ⟨by simp [Text], ?_, by decide⟩ ?_) h0 (by simp) hb (.arr (.nextElem (w := []) (w' := []) (t := [0x74#8, 0x72#8, 0x75#8, 0x65#8]) h0 h0 (.const .true)
      (.inElem (w := [0x20#8]) hb (.obj (.afterName (w0 := []) (nt := [0x62#8]) (w := [0x20#8]) h0 (.bare (s := []) (by decide) (by simp)) hb)) (by simp)))))
  · intro a b h
    have : (0x22#8 : Byte) ∈ [0x61#8] := by rw [h]; simp
    simp at this
  · intro a b h
    have : (0x5c#8 : Byte) ∈ [0x61#8] := by rw [h]; simp
    simp at this

/-- `[ "ab`, and `// ab`, and `{a:}` -/
example : parse noNumbers ([] ++ 0x5b#8 :: [0x20#8, 0x22#8, 0x61#8, 0x62#8, 0]) = .error .oob := by
  refine (C136_cut_reads_outside (by simp [Blanks])).1 (.inElem (w := [0x20#8]) (by intro c hc; simp at hc; subst hc; unfold Blank; decide) (.string (s := [0x61#8, 0x62#8]) (by simp) (by simp [Text]) ?_) (by simp))
  intro a b h
  have : (0x22#8 : Byte) ∈ [0x61#8, 0x62#8] := by rw [h]; simp
  simp at this

example (rest : List Byte) : parse noNumbers ([] ++ 0x2f#8 :: 0x2f#8 :: [0x61#8] ++ 0 :: rest) = .error .ub := C136_comment_to_the_end noNumbers (by simp [Inline]) (by simp [Text]) (by simp) rest

example (rest : List Byte) : ∃ r, parse noNumbers ([0x7b#8, 0x61#8, 0x3a#8, 0x7d#8] ++ rest) = .ok (.ok r) ∧ r.plain = .mk none {} .obj [.mk (some [0x61#8]) {} .unset []] :=
  C136_missing_value_accepted noNumbers (nt := [0x61#8]) (w := []) (.bare (s := []) (by decide) (by simp)) (by simp [Blanks]) rest

end Zpl.Json
