import Verif.Str.Num
import Verif.Str.Token
import Verif.Str.Chars

/-!
# Command line options (code/source/opts.c, code/header/opts.h)  -  C53

A block of memory holding a C string is a list of bytes; a pointer into it is the list of bytes from there on.  The name pointers of an entry are given by
the texts they point to.  Reading a real number (`zpl_str_to_f64`) is a parameter of the model.  All allocations succeed.  `desc`, `appname` and
the printing functions are left out.

## Model -/

namespace Zpl.Opts

open Zpl Zpl.Str

/-- opts.h:15-20 `zpl_opts_types`. -/
inductive Kind where
  | string | real | flag | int
  deriving DecidableEq, Repr

/-- The anonymous union of opts.h:28-32, with the member last stored in it. -/
inductive Val (ρ : Type) where
  | unset
  | text (s : List Byte)
  | int (n : Int)
  | real (x : ρ)
  deriving DecidableEq, Repr

/-- opts.h:22-33 `zpl_opts_entry`. -/
structure Entry (ρ : Type) where
  name : Option (List Byte)
  lname : Option (List Byte)
  kind : Kind
  met : Bool := false
  pos : Bool := false
  val : Val ρ := .unset
  deriving DecidableEq, Repr

/-- opts.h:35-40 `zpl_opts_err_type`. -/
inductive Err where
  | value | option | extra | missing
  deriving DecidableEq, Repr

/-- opts.h:47-53 `zpl_opts`.  `blk` says which block of memory the array `entries` lives in now; an element of `positioned` is the address of an
entry, that is, a block and an index.  An error is its type and the text its pointer points to. -/
structure Opts (ρ : Type) where
  entries : List (Entry ρ)
  blk : Nat
  cap : Nat
  positioned : List (Nat × Nat)
  errors : List (Err × List Byte)
  deriving DecidableEq, Repr

variable {ρ : Type}

/-- opts.c:11-20 `zpl_opts_init`: three empty arrays, each with room for 8 elements (array.h:78, 107). -/
def init : Opts ρ := ⟨[], 0, 8, [], []⟩

/-- opts.c:35-46 `zpl_opts_add`: `zpl_array_append` moves the entries into a new block when the present one is full (array.h:122, 142-149). -/
def add (o : Opts ρ) (name lname : Option (List Byte)) (kind : Kind) : Opts ρ :=
  let o := if o.cap < o.entries.length + 1 then { o with blk := o.blk + 1, cap := 2 * o.cap + 8 } else o
  { o with entries := o.entries ++ [{ name, lname, kind }] }

/-- string.h:181-185 `zpl_strnlen`. -/
def strnlen : Nat → List Byte → Except Fault Nat
  | 0, _ => .ok 0
  | _ + 1, [] => .error .oob
  | n + 1, c :: s => if c = 0 then .ok 0 else do .ok ((← strnlen n s) + 1)

/-- opts.c:53-56: does the name `n` of an entry equal the first `len` characters at `name`?  A null name is passed over. -/
def nameMatches (n : Option (List Byte)) (name : List Byte) (len : Nat) : Except Fault Bool :=
  match n with
  | none => .ok false
  | some n => do
    let l ← strnlen len name
    let ln ← strlen (n ++ [0])
    if l = ln then do
      let r ← strncmp false (n ++ [0]) name len
      .ok (r = 0)
    else .ok false

/-- opts.c:51-57: the loop over the entries. -/
def findLoop (name : List Byte) (len : Nat) (longname : Bool) : List (Entry ρ) → Nat → Except Fault (Option Nat)
  | [], _ => .ok none
  | e :: es, i => do
    if ← nameMatches (if longname then e.lname else e.name) name len then .ok (some i)
    else findLoop name len longname es (i + 1)

/-- opts.c:48-60 `zpl__opts_find`: the index of the entry found. -/
def find (o : Opts ρ) (name : List Byte) (len : Nat) (longname : Bool) : Except Fault (Option Nat) :=
  findLoop name len longname o.entries 0

/-- Change entry `i`. -/
def modify (o : Opts ρ) (i : Nat) (f : Entry ρ → Entry ρ) : Opts ρ := { o with entries := o.entries.modify i f }

/-- opts.c:62-69 `zpl_opts_positional_add`: the address of the entry goes to the front of `positioned`. -/
def positionalAdd (o : Opts ρ) (name : List Byte) : Except Fault (Opts ρ) := do
  let n ← strlen name
  match ← find o name n true with
  | some i => .ok { modify o i (fun e => { e with pos := true }) with positioned := (o.blk, i) :: o.positioned }
  | none => .ok o

/-- opts.c:71 `zpl_opts_positionals_filled`. -/
def positionalsFilled (o : Opts ρ) : Bool := o.positioned.length = 0

/-- opts.c:73-89: what the three getters have in common.  `some v` is the union of a given option, `none` tells to return the fallback. -/
def getValue (o : Opts ρ) (name : List Byte) : Except Fault (Option (Val ρ)) := do
  let n ← strlen name
  match ← find o name n true with
  | some i => do
    let e ← rd o.entries i
    .ok (if e.met then some e.val else none)
  | none => .ok none

/-- opts.c:116-122 `zpl_opts_has_arg`. -/
def hasArg (o : Opts ρ) (name : List Byte) : Except Fault Bool := do
  let n ← strlen name
  match ← find o name n true with
  | some i => do
    let e ← rd o.entries i
    .ok e.met
  | none => .ok false

/-- Follow the address of an entry: the block must still be the one the entries live in. -/
def deref (o : Opts ρ) (p : Nat × Nat) : Except Fault Nat :=
  if p.1 = o.blk ∧ p.2 < o.entries.length then .ok p.2 else .error .ub

/-- Read the C string at `b`. -/
def textAt (b : List Byte) : Except Fault (List Byte) := do
  let n ← strlen b
  .ok (b.take n)

/-- opts.c:94-106: the value stored for an option of this type. -/
def convert (toReal : List Byte → Except Fault ρ) (kind : Kind) (old : Val ρ) (b : List Byte) : Except Fault (Val ρ) :=
  match kind with
  | .string => do .ok (.text (← textAt b))
  | .real => do .ok (.real (← toReal b))
  | .int => do
    let r ← Num.strToI64 b 10
    .ok (.int r.1)
  | .flag => .ok old

/-- opts.c:109: `!zpl_strcmp(opts->positioned[i]->lname, t->lname)`; a null name is not a string. -/
def sameName (a b : Option (List Byte)) : Except Fault Bool :=
  match a, b with
  | some a, some b => do
    let r ← strcmp (a ++ [0]) (b ++ [0])
    .ok (r = 0)
  | _, _ => .error .ub

/-- opts.c:108-113: drop the first pending positional with the name of `t`. -/
def dropPending (o : Opts ρ) (t : Option (List Byte)) : List (Nat × Nat) → Except Fault (List (Nat × Nat))
  | [] => .ok []
  | p :: ps => do
    let i ← deref o p
    let e ← rd o.entries i
    if ← sameName e.lname t then .ok ps
    else do .ok (p :: (← dropPending o t ps))

/-- opts.c:91-114 `zpl__opts_set_value`. -/
def setValue (toReal : List Byte → Except Fault ρ) (o : Opts ρ) (t : Nat) (b : List Byte) : Except Fault (Opts ρ) := do
  let e ← rd o.entries t
  let v ← convert toReal e.kind e.val b
  let o := modify o t (fun e => { e with met := true, val := v })
  let ps ← dropPending o e.lname o.positioned
  .ok { o with positioned := ps }

/-- opts.c:165-170 `zpl__opts_push_error`. -/
def pushError (o : Opts ρ) (text : List Byte) (err : Err) : Opts ρ := { o with errors := o.errors ++ [(err, text)] }

/-- opts.c:189: `zpl_char_is_alphanumeric(*e) || *e == '-' || *e == '_'`. -/
def isNameChar (c : Byte) : Bool := Chars.isAlphanumeric c || c = 0x2d#8 || c = 0x5f#8

/-- opts.c:189: the length of the name at `b`. -/
def nameLen : List Byte → Except Fault Nat
  | [] => .error .oob
  | c :: s => if isNameChar c then do .ok ((← nameLen s) + 1) else .ok 0

/-- opts.c:230: `zpl_str_control_skip(e, '\0')` on the value that starts at `v`.  `prev` is the byte before it, if there is one: the skip reads it when
the value is empty. -/
def skipValue (prev : Option Byte) (v : List Byte) : Except Fault Nat := do
  let c ← rd v 0
  match prev with
  | none => if c = 0 then .error .oob else Token.controlSkip 0 0 v
  | some p => Token.controlSkip 0 p v

/-- opts.c:230-231. -/
def assign (toReal : List Byte → Except Fault ρ) (o : Opts ρ) (t : Nat) (prev : Option Byte) (v : List Byte) : Except Fault (Opts ρ) := do
  let _ ← skipValue prev v
  setValue toReal o t v

/-- opts.c:220-226: no value follows an option. -/
def noValue (o : Opts ρ) (t : Nat) (kind : Kind) (ob : List Byte) : Except Fault (Opts ρ × Bool × Bool) :=
  if kind ≠ .flag then do .ok (pushError o (← textAt ob) .missing, true, false)
  else .ok (modify o t (fun e => { e with met := true }), false, false)

/-- opts.c:206-228: an option with nothing behind its name in its argument; `sp` is the next argument, if there is one. -/
def separate (toReal : List Byte → Except Fault ρ) (o : Opts ρ) (t : Nat) (kind : Kind) (ob b : List Byte) (next : Option (List Byte)) :
    Except Fault (Opts ρ × Bool × Bool) :=
  match next with
  | none => noValue o t kind ob
  | some sp => do
    let c ← rd sp 0
    if c ≠ 0x2d#8 ∧ (o.positioned.length < 1 ∨ kind ≠ .flag) then
      if kind = .flag then do .ok (pushError o (← textAt b) .extra, true, false)
      else do .ok (← assign toReal o t none sp, false, true)
    else noValue o t kind ob

/-- opts.c:193-231: an option that is in the table, with its name at `ob` and `len` characters long. -/
def known (toReal : List Byte → Except Fault ρ) (o : Opts ρ) (t len : Nat) (ob : List Byte) (next : Option (List Byte)) :
    Except Fault (Opts ρ × Bool × Bool) := do
  let e ← rd o.entries t
  let c ← rd ob len
  if c = 0x3d#8 then
    if e.kind = .flag then .ok (pushError o (ob.take len) .extra, true, false)
    else do .ok (← assign toReal o t (some 0x3d#8) (ob.drop (len + 1)), false, false)
  else if c = 0 then separate toReal o t e.kind ob (ob.drop len) next
  else do .ok (← assign toReal o t (some ((0x2d#8 :: ob).getD len 0)) (ob.drop len), false, false)

/-- opts.c:180-235: an argument beginning with `-`, at `p`. -/
def option (toReal : List Byte → Except Fault ρ) (o : Opts ρ) (p : List Byte) (next : Option (List Byte)) : Except Fault (Opts ρ × Bool × Bool) := do
  let c ← rd p 1
  let checkln : Bool := c = 0x2d#8
  let b := if checkln then p.drop 2 else p.drop 1
  let len ← nameLen b
  match ← find o b len checkln with
  | some t => known toReal o t len b next
  | none => do .ok (pushError o (← textAt b) .option, true, false)

/-- opts.c:236-243: an argument that does not begin with `-`. -/
def positional (toReal : List Byte → Except Fault ρ) (o : Opts ρ) (p : List Byte) : Except Fault (Opts ρ × Bool × Bool) :=
  match o.positioned.getLast? with
  | some l => do
    let o := { o with positioned := o.positioned.dropLast }
    let t ← deref o l
    .ok (← setValue toReal o t p, false, false)
  | none => do .ok (pushError o (← textAt p) .value, true, false)

/-- opts.c:175-244: one argument.  The result: was there an error, and was the next argument taken as well? -/
def step (toReal : List Byte → Except Fault ρ) (o : Opts ρ) (p : List Byte) (next : Option (List Byte)) : Except Fault (Opts ρ × Bool × Bool) := do
  let c ← rd p 0
  if c = 0 then .ok (o, false, false)
  else do
    let k ← Token.trim false p
    let c ← rd p k
    if c = 0x2d#8 then option toReal o (p.drop k) next
    else positional toReal o (p.drop k)

/-- opts.c:174-245: the loop over the arguments after the first; `skip` when the one in front was taken as a value already. -/
def loop (toReal : List Byte → Except Fault ρ) : Bool → List (List Byte) → Opts ρ → Bool → Except Fault (Opts ρ × Bool)
  | _, [], o, err => .ok (o, !err)
  | true, _ :: ps, o, err => loop toReal false ps o err
  | false, p :: ps, o, err => do
    let (o, e, skip) ← step toReal o p ps.head?
    loop toReal skip ps o (err || e)

/-- opts.c:172-247 `zpl_opts_compile` over the arguments `argv[1] ... argv[argc - 1]`; `argv[argc]` is null (C11 5.1.2.2.1). -/
def compile (toReal : List Byte → Except Fault ρ) (o : Opts ρ) (args : List (List Byte)) : Except Fault (Opts ρ × Bool) :=
  loop toReal false args o false

/-! ## Specification -/

/-- Letters, digits, the dash and the underscore. -/
def NameChar (c : Byte) : Bool :=
  (48 ≤ c.toNat && c.toNat ≤ 57) || (65 ≤ c.toNat && c.toNat ≤ 90) || (97 ≤ c.toNat && c.toNat ≤ 122) || c.toNat == 45 || c.toNat == 95

/-- A name an option can be called by. -/
def Name (n : List Byte) : Prop := ∀ c ∈ n, NameChar c = true

/-- The long or the short name of an entry. -/
def nameOf (long : Bool) (e : Entry ρ) : Option (List Byte) := if long then e.lname else e.name

/-- Entry `i` is the first with this name. -/
def Names (es : List (Entry ρ)) (long : Bool) (n : List Byte) (i : Nat) (e : Entry ρ) : Prop :=
  es[i]? = some e ∧ nameOf long e = some n ∧ ∀ j e', j < i → es[j]? = some e' → nameOf long e' ≠ some n

/-- A table of options: every entry has a long name of its own, and all names are texts. -/
def Table (es : List (Entry ρ)) : Prop :=
  (∀ e ∈ es, ∃ n, e.lname = some n) ∧ (∀ e ∈ es, ∀ n, e.lname = some n ∨ e.name = some n → Text n) ∧ (es.map (·.lname)).Nodup

/-- The dashes in front of a name. -/
def dashes (long : Bool) : List Byte := if long then [0x2d#8, 0x2d#8] else [0x2d#8]

/-- After the dashes, `n` is read as the name: a short name does not begin with a dash. -/
def Sayable (long : Bool) (n : List Byte) : Prop := Name n ∧ (long = false → n.head? ≠ some 0x2d#8)

/-- What the text `v` means as a value of an option of type `kind`. -/
inductive Reads (toReal : List Byte → Except Fault ρ) : Kind → List Byte → Val ρ → Prop
  | string (v : List Byte) : Reads toReal .string v (.text v)
  | int {v : List Byte} {n : Int} (h : ∀ rest, ∃ k, Num.strToI64 (v ++ 0 :: rest) 10 = .ok (n, k)) : Reads toReal .int v (.int n)
  | real {v : List Byte} {x : ρ} (h : ∀ rest, toReal (v ++ 0 :: rest) = .ok x) : Reads toReal .real v (.real x)

/-- The pieces a command line is made of. -/
inductive Item where
  /-- `-f` or `--flag` -/
  | flag (long : Bool) (n : List Byte)
  /-- `--name=value` -/
  | joined (long : Bool) (n v : List Byte)
  /-- `--name` and `value` in two arguments -/
  | apart (long : Bool) (n v : List Byte)
  /-- `value` for the next positional -/
  | pos (v : List Byte)
  /-- an argument that is wrong where it stands -/
  | wrong (arg : List Byte)

/-- The arguments an item is written as. -/
def Item.args : Item → List (List Byte)
  | .flag long n => [dashes long ++ n]
  | .joined long n v => [dashes long ++ n ++ 0x3d#8 :: v]
  | .apart long n v => [dashes long ++ n, v]
  | .pos v => [v]
  | .wrong arg => [arg]

/-- The arguments of a command line. -/
def args (items : List Item) : List (List Byte) := items.flatMap Item.args

/-- No argument follows, or one that begins with a dash. -/
def DashNext (as : List (List Byte)) : Prop := ∀ a, as.head? = some a → a.head? = some 0x2d#8

/-- What is wrong with the argument `arg`, when `pending` are the positionals not given yet and `after` the arguments behind it: the kind of error, and the
text reported with it. -/
inductive Wrong (es : List (Entry ρ)) (pending : List Nat) : List Byte → List (List Byte) → Err → List Byte → Prop
  /-- no option has this name -/
  | unknown {long : Bool} {n tail : List Byte} {after : List (List Byte)} (hn : Name n) (ht : Text tail) (hs : long = false → (n ++ tail).head? ≠ some 0x2d#8)
      (hend : ∀ c, tail.head? = some c → NameChar c = false) (hno : ∀ e ∈ es, nameOf long e ≠ some n) :
      Wrong es pending (dashes long ++ n ++ tail) after .option (n ++ tail)
  /-- the value is missing -/
  | missing {long : Bool} {n : List Byte} {after : List (List Byte)} {i : Nat} {e : Entry ρ} (hn : Sayable long n) (hi : Names es long n i e)
      (hk : e.kind ≠ .flag) (ha : DashNext after) : Wrong es pending (dashes long ++ n) after .missing n
  /-- a flag takes no value -/
  | extra {long : Bool} {n v : List Byte} {after : List (List Byte)} {i : Nat} {e : Entry ρ} (hn : Sayable long n) (hi : Names es long n i e)
      (hk : e.kind = .flag) : Wrong es pending (dashes long ++ n ++ 0x3d#8 :: v) after .extra n
  /-- there is no positional left -/
  | value {v : List Byte} {after : List (List Byte)} {c : Byte} (hp : pending = []) (hv : Text v) (hc : v.head? = some c) (hd : c ≠ 0x2d#8)
      (hb : ¬ Token.Blank c) : Wrong es pending v after .value v
  /-- a flag with an argument behind it that no positional can take: reported with an empty text -/
  | stray {long : Bool} {n a : List Byte} {after : List (List Byte)} {i : Nat} {e : Entry ρ} (hn : Sayable long n) (hi : Names es long n i e)
      (hk : e.kind = .flag) (hp : pending = []) (ha : a.head? ≠ some 0x2d#8) : Wrong es pending (dashes long ++ n) (a :: after) .extra []

/-- Which values a command line gives to which entries, in order (`none` for a flag), which errors it has, and which positionals are left over, when
`pending` are the positionals to be given, in order. -/
inductive Line (toReal : List Byte → Except Fault ρ) (es : List (Entry ρ)) :
    List Nat → List Item → List (Nat × Option (Val ρ)) → List (Err × List Byte) → List Nat → Prop
  | nil (pending : List Nat) : Line toReal es pending [] [] [] pending
  | flag {pending left : List Nat} {items : List Item} {log : List (Nat × Option (Val ρ))} {errs : List (Err × List Byte)} {long : Bool} {n : List Byte}
      {i : Nat} {e : Entry ρ} (hn : Sayable long n) (hi : Names es long n i e) (hk : e.kind = .flag) (hp : pending = [] → DashNext (args items))
      (rest : Line toReal es pending items log errs left) : Line toReal es pending (.flag long n :: items) ((i, none) :: log) errs left
  | joined {pending left : List Nat} {items : List Item} {log : List (Nat × Option (Val ρ))} {errs : List (Err × List Byte)} {long : Bool}
      {n v : List Byte} {i : Nat} {e : Entry ρ} {x : Val ρ} (hn : Sayable long n) (hi : Names es long n i e) (hx : Reads toReal e.kind v x)
      (hv : Text v) (hl : v.getLast? ≠ some 0x5c#8) (rest : Line toReal es (pending.erase i) items log errs left) :
      Line toReal es pending (.joined long n v :: items) ((i, some x) :: log) errs left
  | apart {pending left : List Nat} {items : List Item} {log : List (Nat × Option (Val ρ))} {errs : List (Err × List Byte)} {long : Bool}
      {n v : List Byte} {i : Nat} {e : Entry ρ} {x : Val ρ} (hn : Sayable long n) (hi : Names es long n i e) (hx : Reads toReal e.kind v x)
      (hv : Text v) (h0 : v ≠ []) (hd : v.head? ≠ some 0x2d#8) (hl : v.getLast? ≠ some 0x5c#8)
      (rest : Line toReal es (pending.erase i) items log errs left) : Line toReal es pending (.apart long n v :: items) ((i, some x) :: log) errs left
  | pos {pending left : List Nat} {items : List Item} {log : List (Nat × Option (Val ρ))} {errs : List (Err × List Byte)} {v : List Byte} {c : Byte}
      {i : Nat} {e : Entry ρ} {x : Val ρ} (hi : es[i]? = some e) (hx : Reads toReal e.kind v x) (hv : Text v) (hc : v.head? = some c)
      (hd : c ≠ 0x2d#8) (hb : ¬ Token.Blank c) (rest : Line toReal es pending items log errs left) :
      Line toReal es (i :: pending) (.pos v :: items) ((i, some x) :: log) errs left
  | wrong {pending left : List Nat} {items : List Item} {log : List (Nat × Option (Val ρ))} {errs : List (Err × List Byte)} {arg t : List Byte}
      {k : Err} (hw : Wrong es pending arg (args items) k t) (rest : Line toReal es pending items log errs left) :
      Line toReal es pending (.wrong arg :: items) log ((k, t) :: errs) left

/-- The last value given to entry `i`. -/
def lastValue (i : Nat) (log : List (Nat × Option (Val ρ))) : Option (Val ρ) :=
  (log.filterMap (fun a => if a.1 = i then a.2 else none)).getLast?

/-- The entries after these assignments: an entry is met when it has been assigned to, and holds the last value given. -/
def assigned (log : List (Nat × Option (Val ρ))) (es : List (Entry ρ)) : List (Entry ρ) :=
  es.mapIdx (fun i e => { e with met := e.met || log.any (fun a => a.1 = i), val := (lastValue i log).getD e.val })

/-- The addresses in `positioned` are those of the pending entries, the next one last. -/
def Pending (o : Opts ρ) (pending : List Nat) : Prop :=
  o.positioned = (pending.map (fun i => (o.blk, i))).reverse ∧ pending.Nodup ∧ ∀ i ∈ pending, i < o.entries.length

/-! ## Lemmas -/

theorem nameChar_iff (c : Byte) : isNameChar c = NameChar c := by
  revert c; decide

theorem nameChar_ne {c : Byte} (h : NameChar c = true) : c ≠ 0 := by
  intro e; subst e; revert h; decide

theorem Name.text {n : List Byte} (h : Name n) : Text n := fun c hc => nameChar_ne (h c hc)

theorem strnlen_ok {n : List Byte} (hn : Text n) (r : List Byte) : strnlen n.length (n ++ r) = .ok n.length := by
  induction n with
  | nil => rfl
  | cons c n ih =>
    have hc := Text.cons.1 hn
    simp only [List.cons_append, List.length_cons, strnlen]
    rw [if_neg hc.1, ih hc.2]; rfl

theorem strncmp_len {m n : List Byte} (h : m.length = n.length) (hn : Text n) (r r' : List Byte) :
    ∃ v, strncmp false (m ++ r) (n ++ r') n.length = .ok v ∧ (v = 0 ↔ m = n) := by
  induction n generalizing m with
  | nil =>
    obtain rfl : m = [] := List.eq_nil_of_length_eq_zero h
    exact ⟨0, by simp [strncmp], by simp⟩
  | cons c n ih =>
    cases m with
    | nil => simp at h
    | cons d m =>
      have hc := Text.cons.1 hn
      simp only [List.cons_append, List.length_cons, strncmp]
      by_cases hdc : d = c
      · subst hdc
        obtain ⟨v, h1, h2⟩ := ih (m := m) (by simpa using h) hc.2
        refine ⟨v, ?_, by simp [h2]⟩
        rw [if_neg (fun k => k rfl), if_neg hc.1, h1]
      · exact ⟨1, by rw [if_pos hdc]; rfl, by simp [hdc]⟩

theorem nameMatches_ok {m : Option (List Byte)} {n : List Byte} (hm : ∀ k, m = some k → Text k) (hn : Text n) (r : List Byte) :
    nameMatches m (n ++ r) n.length = .ok (decide (m = some n)) := by
  cases m with
  | none => simp [nameMatches]
  | some k =>
    have hk := hm k rfl
    simp only [nameMatches]
    rw [strnlen_ok hn, except_ok_bind, strlen_ok hk, except_ok_bind]
    by_cases h : n.length = k.length
    · obtain ⟨v, h1, h2⟩ := strncmp_len h.symm hn [0] r
      rw [if_pos h, h1, except_ok_bind]
      simp [h2]
    · rw [if_neg h]
      have : k ≠ n := fun e => h (by rw [e])
      simp [this]

theorem findLoop_ok {es : List (Entry ρ)} (hes : ∀ e ∈ es, ∀ n, e.lname = some n ∨ e.name = some n → Text n) {n : List Byte} (hn : Text n)
    (long : Bool) (r : List Byte) (k : Nat) :
    findLoop (n ++ r) n.length long es k = .ok ((es.findIdx? (fun e => nameOf long e = some n)).map (· + k)) := by
  induction es generalizing k with
  | nil => rfl
  | cons e es ih =>
    have he := hes e List.mem_cons_self
    have hm : ∀ q, nameOf long e = some q → Text q := by
      intro q hq
      cases long
      · exact he q (.inr hq)
      · exact he q (.inl hq)
    rw [findLoop]
    have := nameMatches_ok hm hn r
    rw [nameOf] at this
    rw [this, except_ok_bind]
    rw [List.findIdx?_cons]
    by_cases h : nameOf long e = some n
    · have h' := h
      rw [nameOf] at h'
      rw [if_pos (by simp [h']), if_pos (by simp [h])]; simp
    · have h' := h
      rw [nameOf] at h'
      rw [if_neg (by simp [h']), if_neg (by simp [h]), ih (fun e he => hes e (List.mem_cons_of_mem _ he))]
      cases es.findIdx? (fun e => decide (nameOf long e = some n)) <;> simp <;> omega

theorem names_iff {es : List (Entry ρ)} {long : Bool} {n : List Byte} {i : Nat} {e : Entry ρ} (h : Names es long n i e) :
    es.findIdx? (fun e => nameOf long e = some n) = some i := by
  rw [List.findIdx?_eq_some_iff_getElem]
  obtain ⟨h1, h2, h3⟩ := h
  obtain ⟨hi, h1⟩ := List.getElem?_eq_some_iff.1 h1
  refine ⟨hi, by simp [h1, h2], ?_⟩
  intro j hj
  have := h3 j es[j] hj (by simp)
  simpa using this

theorem find_ok {o : Opts ρ} (hes : Table o.entries) {long : Bool} {n : List Byte} {i : Nat} {e : Entry ρ} (hn : Text n)
    (h : Names o.entries long n i e) (r : List Byte) : find o (n ++ r) n.length long = .ok (some i) := by
  rw [find, findLoop_ok hes.2.1 hn, names_iff h]; rfl

theorem find_none {o : Opts ρ} (hes : Table o.entries) {long : Bool} {n : List Byte} (hn : Text n)
    (h : ∀ e ∈ o.entries, nameOf long e ≠ some n) (r : List Byte) : find o (n ++ r) n.length long = .ok none := by
  rw [find, findLoop_ok hes.2.1 hn, List.findIdx?_eq_none_iff.2 (by simpa using h)]; rfl

theorem nameLen_ok {n : List Byte} (hn : Name n) {c : Byte} (hc : NameChar c = false) (r : List Byte) :
    nameLen (n ++ c :: r) = .ok n.length := by
  induction n with
  | nil => simp [nameLen, nameChar_iff, hc]
  | cons d n ih =>
    rw [List.cons_append, nameLen, nameChar_iff, if_pos (hn d List.mem_cons_self), ih (fun c h => hn c (List.mem_cons_of_mem _ h))]
    rfl

theorem textAt_ok {s : List Byte} (hs : Text s) (r : List Byte) : textAt (s ++ 0 :: r) = .ok s := by
  rw [textAt, strlen_ok hs, except_ok_bind, List.take_left]

theorem controlSkip_end (prev : Byte) {s : List Byte} (hs : Text s) (r : List Byte) (h : (prev :: s).getLast? ≠ some 0x5c#8) :
    ∃ k, Token.controlSkip 0 prev (s ++ 0 :: r) = .ok k := by
  induction s generalizing prev with
  | nil =>
    refine ⟨0, ?_⟩
    rw [List.nil_append, Token.controlSkip, if_neg (fun h => h.1 rfl), if_neg]
    rintro ⟨rfl, -⟩
    exact h rfl
  | cons c s ih =>
    have hc := Text.cons.1 hs
    obtain ⟨k, hk⟩ := ih c hc.2 (by rw [List.getLast?_cons_cons] at h; exact h)
    exact ⟨k + 1, by rw [List.cons_append, Token.controlSkip, if_pos ⟨hc.1, hc.1⟩, hk]; rfl⟩

theorem convert_ok {toReal : List Byte → Except Fault ρ} {k : Kind} {v : List Byte} {x : Val ρ} (h : Reads toReal k v x) (hv : Text v) (old : Val ρ)
    (r : List Byte) : convert toReal k old (v ++ 0 :: r) = .ok x := by
  cases h with
  | string => rw [convert, textAt_ok hv]; rfl
  | int h =>
    obtain ⟨k, h⟩ := h r
    rw [convert, h]; rfl
  | real h => rw [convert, h]; rfl

theorem sameName_ok {a b : List Byte} (ha : Text a) (hb : Text b) : sameName (some a) (some b) = .ok (decide (a = b)) := by
  obtain ⟨r, h1, -, h2, -⟩ := strcmp_ok ha hb [] []
  simp only [sameName]
  rw [h1, except_ok_bind]
  simp [h2]

theorem lname_inj {es : List (Entry ρ)} (h : Table es) {i j : Nat} {a b : Entry ρ} (hi : es[i]? = some a) (hj : es[j]? = some b)
    (he : a.lname = b.lname) : i = j := by
  have hn := h.2.2
  obtain ⟨hi', rfl⟩ := List.getElem?_eq_some_iff.1 hi
  obtain ⟨hj', rfl⟩ := List.getElem?_eq_some_iff.1 hj
  exact (List.getElem?_inj (by simpa using hi') hn).1 (by simp [hi', hj', he])

theorem dropPending_ok {o : Opts ρ} (ho : Table o.entries) {i : Nat} {e : Entry ρ} (hi : o.entries[i]? = some e) (qs : List Nat)
    (hq : ∀ j ∈ qs, j < o.entries.length) :
    dropPending o e.lname (qs.map (fun j => (o.blk, j))) = .ok ((qs.erase i).map (fun j => (o.blk, j))) := by
  induction qs with
  | nil => rfl
  | cons j qs ih =>
    have hj := hq j List.mem_cons_self
    obtain ⟨a, ha⟩ := ho.1 _ (List.getElem_mem hj)
    obtain ⟨b, hb⟩ := ho.1 e (List.mem_of_getElem? hi)
    have ta := ho.2.1 _ (List.getElem_mem hj) a (.inl ha)
    have tb := ho.2.1 e (List.mem_of_getElem? hi) b (.inl hb)
    have e1 : deref o (o.blk, j) = .ok j := by rw [deref, if_pos ⟨rfl, hj⟩]
    rw [List.map_cons, dropPending, e1, except_ok_bind, rd_ok hj, except_ok_bind, ha, hb, sameName_ok ta tb, except_ok_bind]
    by_cases hab : a = b
    · have : j = i := lname_inj ho (List.getElem?_eq_getElem hj) hi (by rw [ha, hb, hab])
      rw [if_pos (by simpa using hab), this, List.erase_cons_head]
    · have hne : j ≠ i := by
        rintro rfl
        rw [List.getElem?_eq_getElem hj] at hi
        cases hi
        rw [ha] at hb
        exact hab (by simpa using hb)
      rw [if_neg (by simpa using hab), ← hb, ih (fun j h => hq j (List.mem_cons_of_mem _ h)), List.erase_cons_tail (by simpa using hne)]
      rfl

theorem erase_reverse {l : List Nat} (h : l.Nodup) (i : Nat) : l.reverse.erase i = (l.erase i).reverse := by
  rw [h.erase_eq_filter, ((List.reverse_perm l).nodup_iff.2 h).erase_eq_filter, List.filter_reverse]

/-- The change an assignment makes to an entry. -/
def put (x : Option (Val ρ)) (e : Entry ρ) : Entry ρ := { e with met := true, val := x.getD e.val }

theorem table_same {es es' : List (Entry ρ)} (h : es'.map (fun e => (e.lname, e.name)) = es.map (fun e => (e.lname, e.name))) (ht : Table es) :
    Table es' := by
  have hm : ∀ e ∈ es', ∃ e₀ ∈ es, e₀.lname = e.lname ∧ e₀.name = e.name := by
    intro e he
    have : (e.lname, e.name) ∈ es'.map (fun e => (e.lname, e.name)) := List.mem_map.2 ⟨e, he, rfl⟩
    rw [h] at this
    obtain ⟨e₀, h0, h1⟩ := List.mem_map.1 this
    exact ⟨e₀, h0, by simpa using h1⟩
  refine ⟨?_, ?_, ?_⟩
  · intro e he
    obtain ⟨e₀, h0, h1, h2⟩ := hm e he
    rw [← h1]; exact ht.1 e₀ h0
  · intro e he
    obtain ⟨e₀, h0, h1, h2⟩ := hm e he
    rw [← h1, ← h2]; exact ht.2.1 e₀ h0
  · have := congrArg (List.map Prod.fst) h
    simp only [List.map_map] at this
    have e1 : (es'.map (·.lname)) = es.map (·.lname) := this
    rw [e1]; exact ht.2.2

theorem map_modify_same {β : Type} {es : List (Entry ρ)} (i : Nat) (f : Entry ρ → Entry ρ) (g : Entry ρ → β) (h : ∀ e, g (f e) = g e) :
    (es.modify i f).map g = es.map g := by
  induction es generalizing i with
  | nil => cases i <;> simp
  | cons e es ih =>
    cases i with
    | zero => simp [h]
    | succ i => simp [ih]

theorem setValue_ok {toReal : List Byte → Except Fault ρ} {o : Opts ρ} (ho : Table o.entries) {pending : List Nat} (hp : Pending o pending) {i : Nat}
    {e : Entry ρ} (hi : o.entries[i]? = some e) {v : List Byte} {x : Val ρ} (hx : Reads toReal e.kind v x) (hv : Text v) (r : List Byte) :
    setValue toReal o i (v ++ 0 :: r) = .ok { o with
      entries := o.entries.modify i (put (some x)), positioned := ((pending.erase i).map (fun j => (o.blk, j))).reverse } := by
  have e0 : rd o.entries i = .ok e := by rw [rd, hi]
  rw [setValue, e0, except_ok_bind, convert_ok hx hv, except_ok_bind]
  have hl : (o.entries.modify i (put (some x)))[i]? = some (put (some x) e) := by
    rw [List.getElem?_modify_eq, hi]; rfl
  have ht : Table (o.entries.modify i (put (some x))) := table_same (map_modify_same i _ _ (fun _ => rfl)) ho
  have := dropPending_ok (o := { o with entries := o.entries.modify i (put (some x)) }) ht hl pending.reverse
    (by intro j hj; simpa using hp.2.2 j (by simpa using hj))
  rw [erase_reverse hp.2.1, List.map_reverse, List.map_reverse, ← hp.1] at this
  have e1 : modify o i (fun e => { e with met := true, val := x }) = { o with entries := o.entries.modify i (put (some x)) } := rfl
  have e2 : (put (some x) e).lname = e.lname := rfl
  rw [e2] at this
  rw [e1]
  dsimp only
  rw [this]
  rfl

theorem pending_erase {o o' : Opts ρ} {pending : List Nat} (hp : Pending o pending) (i : Nat) (hb : o'.blk = o.blk)
    (hl : o'.entries.length = o.entries.length) (h : o'.positioned = ((pending.erase i).map (fun j => (o.blk, j))).reverse) :
    Pending o' (pending.erase i) :=
  ⟨by rw [h, hb], hp.2.1.sublist List.erase_sublist, fun j hj => by rw [hl]; exact hp.2.2 j (List.mem_of_mem_erase hj)⟩

theorem skipValue_joined {v : List Byte} (hv : Text v) (h : v.getLast? ≠ some 0x5c#8) (r : List Byte) :
    ∃ k, skipValue (some 0x3d#8) (v ++ 0 :: r) = .ok k := by
  obtain ⟨k, hk⟩ := controlSkip_end 0x3d#8 hv r (by
    cases v with
    | nil => simp
    | cons c v => rw [List.getLast?_cons_cons]; exact h)
  refine ⟨k, ?_⟩
  rw [skipValue, rd_ok (by simp; omega), except_ok_bind]
  exact hk

theorem skipValue_apart {v : List Byte} (hv : Text v) (h0 : v ≠ []) (h : v.getLast? ≠ some 0x5c#8) (r : List Byte) :
    ∃ k, skipValue none (v ++ 0 :: r) = .ok k := by
  obtain ⟨k, hk⟩ := controlSkip_end 0 hv r (by
    cases v with
    | nil => exact absurd rfl h0
    | cons c v => rw [List.getLast?_cons_cons]; exact h)
  refine ⟨k, ?_⟩
  cases v with
  | nil => exact absurd rfl h0
  | cons c v =>
    rw [skipValue, rd_ok (by simp), except_ok_bind]
    simp only [List.cons_append, List.getElem_cons_zero]
    rw [if_neg (Text.cons.1 hv).1]
    exact hk

theorem option_dashes {toReal : List Byte → Except Fault ρ} {o : Opts ρ} {long : Bool} {s : List Byte} (hs : long = false → s.head? ≠ some 0x2d#8)
    (r : List Byte) (next : Option (List Byte)) :
    step toReal o (dashes long ++ s ++ 0 :: r) next = (do
      let len ← nameLen (s ++ 0 :: r)
      match ← find o (s ++ 0 :: r) len long with
      | some t => known toReal o t len (s ++ 0 :: r) next
      | none => do .ok (pushError o (← textAt (s ++ 0 :: r)) .option, true, false)) := by
  have hsp : Token.isSpace 0x2d#8 = false := by decide
  have e0 : Token.trim false (dashes long ++ s ++ 0 :: r) = .ok 0 := by
    cases long <;> simp [dashes, Token.trim, hsp]
  have e1 : rd (dashes long ++ s ++ 0 :: r) 0 = .ok 0x2d#8 := by
    cases long <;> simp [dashes, rd]
  rw [step, e1, except_ok_bind, if_neg (by decide), e0, except_ok_bind, e1, except_ok_bind, if_pos rfl, List.drop_zero]
  cases long with
  | true =>
    have e2 : rd (dashes true ++ s ++ 0 :: r) 1 = .ok 0x2d#8 := by simp [dashes, rd]
    rw [option, e2, except_ok_bind]
    simp [dashes]
  | false =>
    cases s with
    | nil =>
      simp [option, dashes, rd]
    | cons c s =>
      have hc : c ≠ 0x2d#8 := by simpa using hs rfl
      simp [option, dashes, rd, hc]

/-- How the arguments lie in memory: each is followed by its terminator and whatever comes behind that. -/
def mem (a : List (List Byte × List Byte)) : List (List Byte) := a.map (fun x => x.1 ++ 0 :: x.2)

theorem known_bound {n : List Byte} (hn : Name n) {s : List Byte} (hs : s = [] ∨ ∃ c t, s = c :: t ∧ NameChar c = false) (r : List Byte) :
    nameLen (n ++ s ++ 0 :: r) = .ok n.length := by
  rcases hs with rfl | ⟨c, t, rfl, hc⟩
  · rw [List.append_nil]; exact nameLen_ok hn (by decide) r
  · rw [List.append_assoc, List.cons_append]; exact nameLen_ok hn hc _

theorem rd_at {n : List Byte} (c : Byte) (r : List Byte) : rd (n ++ c :: r) n.length = .ok c := by
  simp [rd]

theorem step_name {toReal : List Byte → Except Fault ρ} {o : Opts ρ} (ho : Table o.entries) {long : Bool} {n s : List Byte} {i : Nat} {e : Entry ρ}
    (hn : Sayable long n) (hi : Names o.entries long n i e) (hs : s = [] ∨ ∃ t, s = 0x3d#8 :: t) (r : List Byte) (next : Option (List Byte)) :
    step toReal o (dashes long ++ (n ++ s) ++ 0 :: r) next = known toReal o i n.length (n ++ s ++ 0 :: r) next := by
  have hd : long = false → (n ++ s).head? ≠ some 0x2d#8 := by
    intro hl
    cases n with
    | nil => rcases hs with rfl | ⟨t, rfl⟩ <;> simp
    | cons c n => exact hn.2 hl
  rw [option_dashes hd, known_bound hn.1 (by
    rcases hs with h | ⟨t, h⟩
    · exact .inl h
    · exact .inr ⟨_, t, h, by decide⟩), except_ok_bind, List.append_assoc, find_ok ho hn.1.text hi, except_ok_bind]

theorem step_flag {toReal : List Byte → Except Fault ρ} {o : Opts ρ} (ho : Table o.entries) {long : Bool} {n : List Byte} {i : Nat} {e : Entry ρ}
    (hn : Sayable long n) (hi : Names o.entries long n i e) (hk : e.kind = .flag) (r : List Byte) {a : List (List Byte × List Byte)}
    (hp : o.positioned = [] → DashNext (a.map Prod.fst)) :
    step toReal o (dashes long ++ n ++ 0 :: r) (mem a).head? = .ok (modify o i (put none), false, false) := by
  have := step_name (toReal := toReal) (s := []) ho hn hi (.inl rfl) r (mem a).head?
  rw [List.append_nil] at this
  have e0 : rd o.entries i = .ok e := by rw [rd, hi.1]
  rw [this, known, e0, except_ok_bind, rd_at, except_ok_bind, if_neg (by decide), if_pos rfl]
  have e2 : noValue o i e.kind (n ++ 0 :: r) = .ok (modify o i (put none), false, false) := by
    rw [noValue, if_neg (by simpa using hk)]; rfl
  cases a with
  | nil => exact e2
  | cons x a =>
    obtain ⟨x1, x2⟩ := x
    simp only [mem, List.map_cons, List.head?_cons, separate]
    rw [rd_ok (by simp; omega), except_ok_bind, if_neg, e2]
    rintro ⟨h1, h2⟩
    rcases h2 with h2 | h2
    · have := hp (by cases h : o.positioned <;> simp_all) x1 (by simp)
      cases x1 with
      | nil => simp at this
      | cons c x1 => simp at this h1; exact h1 this
    · exact h2 hk

theorem step_joined {toReal : List Byte → Except Fault ρ} {o : Opts ρ} (ho : Table o.entries) {pending : List Nat} (hp : Pending o pending)
    {long : Bool} {n v : List Byte} {i : Nat} {e : Entry ρ} {x : Val ρ} (hn : Sayable long n) (hi : Names o.entries long n i e)
    (hx : Reads toReal e.kind v x) (hv : Text v) (hl : v.getLast? ≠ some 0x5c#8) (r : List Byte) (next : Option (List Byte)) :
    step toReal o (dashes long ++ n ++ 0x3d#8 :: v ++ 0 :: r) next = .ok ({ o with
      entries := o.entries.modify i (put (some x)), positioned := ((pending.erase i).map (fun j => (o.blk, j))).reverse }, false, false) := by
  have := step_name (toReal := toReal) (s := 0x3d#8 :: v) ho hn hi (.inr ⟨v, rfl⟩) r next
  have e0 : rd o.entries i = .ok e := by rw [rd, hi.1]
  have e1 : dashes long ++ n ++ 0x3d#8 :: v ++ 0 :: r = dashes long ++ (n ++ 0x3d#8 :: v) ++ 0 :: r := by simp
  have e2 : n ++ 0x3d#8 :: v ++ 0 :: r = n ++ 0x3d#8 :: (v ++ 0 :: r) := by simp
  have e3 : (n ++ 0x3d#8 :: (v ++ 0 :: r)).drop (n.length + 1) = v ++ 0 :: r := by
    rw [List.drop_append, List.drop_eq_nil_of_le (by omega)]
    simp
  have hk : e.kind ≠ .flag := by intro h; rw [h] at hx; cases hx
  obtain ⟨k, h5⟩ := skipValue_joined hv hl r
  rw [e1, this, known, e0, except_ok_bind, e2, rd_at, except_ok_bind, if_pos rfl, if_neg hk, e3, assign, h5, except_ok_bind,
    setValue_ok ho hp hi.1 hx hv]
  rfl

theorem step_apart {toReal : List Byte → Except Fault ρ} {o : Opts ρ} (ho : Table o.entries) {pending : List Nat} (hp : Pending o pending)
    {long : Bool} {n v : List Byte} {i : Nat} {e : Entry ρ} {x : Val ρ} (hn : Sayable long n) (hi : Names o.entries long n i e)
    (hx : Reads toReal e.kind v x) (hv : Text v) (h0 : v ≠ []) (hd : v.head? ≠ some 0x2d#8) (hl : v.getLast? ≠ some 0x5c#8) (r r' : List Byte) :
    step toReal o (dashes long ++ n ++ 0 :: r) (some (v ++ 0 :: r')) = .ok ({ o with
      entries := o.entries.modify i (put (some x)), positioned := ((pending.erase i).map (fun j => (o.blk, j))).reverse }, false, true) := by
  have := step_name (toReal := toReal) (s := []) ho hn hi (.inl rfl) r (some (v ++ 0 :: r'))
  rw [List.append_nil] at this
  have e0 : rd o.entries i = .ok e := by rw [rd, hi.1]
  have hk : e.kind ≠ .flag := by intro h; rw [h] at hx; cases hx
  obtain ⟨k, h5⟩ := skipValue_apart hv h0 hl r'
  rw [this, known, e0, except_ok_bind, rd_at, except_ok_bind, if_neg (by decide), if_pos rfl, separate]
  rw [rd_ok (by simp; omega), except_ok_bind, if_pos, if_neg hk, assign, h5, except_ok_bind, setValue_ok ho hp hi.1 hx hv]
  · rfl
  · refine ⟨?_, .inr hk⟩
    cases v with
    | nil => exact absurd rfl h0
    | cons c v => simpa using hd

theorem step_plain {toReal : List Byte → Except Fault ρ} {o : Opts ρ} {v : List Byte} {c : Byte} (hv : Text v) (hc : v.head? = some c)
    (hd : c ≠ 0x2d#8) (hb : ¬ Token.Blank c) (r : List Byte) (next : Option (List Byte)) :
    step toReal o (v ++ 0 :: r) next = positional toReal o (v ++ 0 :: r) := by
  have hsp : ∀ c : Byte, Token.isSpace c = true ↔ Token.Blank c := by
    unfold Token.Blank; decide +kernel
  cases v with
  | nil => simp at hc
  | cons d v =>
    obtain rfl : d = c := by simpa using hc
    have h0 := (Text.cons.1 hv).1
    have e1 : rd (d :: v ++ 0 :: r) 0 = .ok d := by simp [rd]
    have e2 : Token.trim false (d :: v ++ 0 :: r) = .ok 0 := by
      have : Token.isSpace d = false := by
        cases h : Token.isSpace d with
        | false => rfl
        | true => exact absurd ((hsp d).1 h) hb
      simp [Token.trim, this]
    rw [step, e1, except_ok_bind, if_neg h0, e2, except_ok_bind, e1, except_ok_bind, if_neg hd, List.drop_zero]

theorem step_pos {toReal : List Byte → Except Fault ρ} {o : Opts ρ} (ho : Table o.entries) {pending : List Nat} {i : Nat} (hp : Pending o (i :: pending))
    {v : List Byte} {c : Byte} {e : Entry ρ} {x : Val ρ} (hi : o.entries[i]? = some e)
    (hx : Reads toReal e.kind v x) (hv : Text v) (hc : v.head? = some c) (hd : c ≠ 0x2d#8) (hb : ¬ Token.Blank c) (r : List Byte)
    (next : Option (List Byte)) :
    step toReal o (v ++ 0 :: r) next = .ok ({ o with
      entries := o.entries.modify i (put (some x)), positioned := (pending.map (fun j => (o.blk, j))).reverse }, false, false) := by
  rw [step_plain hv hc hd hb]
  have h1 : o.positioned = (pending.map (fun j => (o.blk, j))).reverse ++ [(o.blk, i)] := by rw [hp.1]; simp
  have hp' : Pending { o with positioned := (pending.map (fun j => (o.blk, j))).reverse } pending :=
    ⟨rfl, (List.nodup_cons.1 hp.2.1).2, fun j hj => hp.2.2 j (List.mem_cons_of_mem _ hj)⟩
  have e1 : pending.erase i = pending := List.erase_of_not_mem (List.nodup_cons.1 hp.2.1).1
  have hil := hp.2.2 i List.mem_cons_self
  have := setValue_ok (toReal := toReal) (o := { o with positioned := (pending.map (fun j => (o.blk, j))).reverse }) ho hp' hi hx hv r
  rw [e1] at this
  rw [positional, h1]
  simp only [List.getLast?_append, List.getLast?_singleton, List.dropLast_concat, Option.some_or]
  rw [deref, if_pos ⟨rfl, hil⟩, except_ok_bind, this]
  rfl

theorem step_wrong {toReal : List Byte → Except Fault ρ} {o : Opts ρ} (ho : Table o.entries) {pending : List Nat} (hp : Pending o pending)
    {arg t : List Byte} {k : Err} {a : List (List Byte × List Byte)} (h : Wrong o.entries pending arg (a.map Prod.fst) k t) (r : List Byte) :
    step toReal o (arg ++ 0 :: r) (mem a).head? = .ok (pushError o t k, true, false) := by
  generalize hb : a.map Prod.fst = after at h
  cases h with
  | @unknown long n tail _ hn ht hs hend hno =>
    rw [List.append_assoc (dashes long), option_dashes hs, known_bound hn (by
      cases tail with
      | nil => exact .inl rfl
      | cons c tail => exact .inr ⟨c, tail, rfl, hend c rfl⟩), except_ok_bind, List.append_assoc n, find_none ho hn.text hno, except_ok_bind]
    dsimp only
    rw [← List.append_assoc, textAt_ok]
    · rfl
    · intro c hc
      rcases List.mem_append.1 hc with h | h
      · exact hn.text c h
      · exact ht c h
  | @missing long _ _ i e hn hi hk ha =>
    have := step_name (toReal := toReal) (s := []) ho hn hi (.inl rfl) r (mem a).head?
    rw [List.append_nil] at this
    have e0 : rd o.entries i = .ok e := by rw [rd, hi.1]
    rw [this, known, e0, except_ok_bind, rd_at, except_ok_bind, if_neg (by decide), if_pos rfl]
    have e2 : noValue o i e.kind (t ++ 0 :: r) = .ok (pushError o t .missing, true, false) := by
      rw [noValue, if_pos hk, textAt_ok hn.1.text]; rfl
    cases a with
    | nil => exact e2
    | cons y a =>
      obtain ⟨x1, x2⟩ := y
      simp only [mem, List.map_cons, List.head?_cons, separate]
      rw [rd_ok (by simp; omega), except_ok_bind, if_neg, e2]
      rintro ⟨h1, -⟩
      have := ha x1 (by simp [← hb])
      cases x1 with
      | nil => simp at this
      | cons c x1 => simp at this h1; exact h1 this
  | @extra long _ v _ i e hn hi hk =>
    have := step_name (toReal := toReal) (s := 0x3d#8 :: v) ho hn hi (.inr ⟨v, rfl⟩) r (mem a).head?
    have e0 : rd o.entries i = .ok e := by rw [rd, hi.1]
    have e1 : dashes long ++ t ++ 0x3d#8 :: v ++ 0 :: r = dashes long ++ (t ++ 0x3d#8 :: v) ++ 0 :: r := by simp
    have e2 : t ++ 0x3d#8 :: v ++ 0 :: r = t ++ 0x3d#8 :: (v ++ 0 :: r) := by simp
    rw [e1, this, known, e0, except_ok_bind, e2, rd_at, except_ok_bind, if_pos rfl, if_pos hk, List.take_left]
  | @value _ _ c hpe hv hc hd hbl =>
    rw [step_plain hv hc hd hbl, positional]
    have : o.positioned = [] := by rw [hp.1, hpe]; rfl
    rw [this]
    dsimp only [List.getLast?_nil]
    rw [textAt_ok hv]; rfl
  | @stray long n a1 after' i e hn hi hk hpe ha =>
    have := step_name (toReal := toReal) (s := []) ho hn hi (.inl rfl) r (mem a).head?
    rw [List.append_nil] at this
    have e0 : rd o.entries i = .ok e := by rw [rd, hi.1]
    have hps : o.positioned = [] := by rw [hp.1, hpe]; rfl
    rw [this, known, e0, except_ok_bind, rd_at, except_ok_bind, if_neg (by decide), if_pos rfl]
    cases a with
    | nil => simp at hb
    | cons y a =>
      obtain ⟨x1, x2⟩ := y
      simp at hb
      simp only [mem, List.map_cons, List.head?_cons, separate]
      rw [rd_ok (by simp; omega), except_ok_bind, if_pos, if_pos hk, List.drop_left]
      · rfl
      · refine ⟨?_, .inl (by rw [hps]; decide)⟩
        rw [← hb.1] at ha
        cases x1 with
        | nil => simp
        | cons c x1 => simpa using ha

theorem assigned_nil (es : List (Entry ρ)) : assigned [] es = es := by
  apply List.ext_getElem?
  intro j
  rw [assigned, List.getElem?_mapIdx]
  cases es[j]? <;> simp [lastValue]

theorem assigned_snoc (log : List (Nat × Option (Val ρ))) (i : Nat) (x : Option (Val ρ)) (es : List (Entry ρ)) :
    assigned (log ++ [(i, x)]) es = (assigned log es).modify i (put x) := by
  apply List.ext_getElem?
  intro j
  rw [List.getElem?_modify, assigned, assigned, List.getElem?_mapIdx, List.getElem?_mapIdx]
  cases es[j]? with
  | none => simp
  | some e =>
    by_cases h : i = j
    · subst h
      cases x <;> simp [put, lastValue]
    · simp [h, lastValue]

theorem assigned_getElem? {es : List (Entry ρ)} {i : Nat} {e : Entry ρ} (h : es[i]? = some e) (log : List (Nat × Option (Val ρ))) :
    (assigned log es)[i]? = some { e with met := e.met || log.any (fun a => a.1 = i), val := (lastValue i log).getD e.val } := by
  rw [assigned, List.getElem?_mapIdx, h]; rfl

theorem assigned_map {β : Type} (es : List (Entry ρ)) (log : List (Nat × Option (Val ρ))) (g : Entry ρ → β)
    (h : ∀ (e : Entry ρ) (m : Bool) (v : Val ρ), g { e with met := m, val := v } = g e) : (assigned log es).map g = es.map g := by
  apply List.ext_getElem?
  intro j
  rw [List.getElem?_map, List.getElem?_map, assigned, List.getElem?_mapIdx]
  cases es[j]? with
  | none => rfl
  | some e => simp [h]

theorem assigned_table {es : List (Entry ρ)} (h : Table es) (log : List (Nat × Option (Val ρ))) : Table (assigned log es) :=
  table_same (assigned_map es log _ (fun _ _ _ => rfl)) h

theorem assigned_names {es : List (Entry ρ)} {long : Bool} {n : List Byte} {i : Nat} {e : Entry ρ} (h : Names es long n i e)
    (log : List (Nat × Option (Val ρ))) : ∃ e', Names (assigned log es) long n i e' ∧ e'.kind = e.kind := by
  refine ⟨_, ⟨assigned_getElem? h.1 log, ?_, ?_⟩, rfl⟩
  · have := h.2.1
    cases long <;> exact this
  · intro j e' hj he'
    rw [assigned, List.getElem?_mapIdx] at he'
    cases hj' : es[j]? with
    | none => rw [hj'] at he'; simp at he'
    | some e₀ =>
      rw [hj'] at he'
      have := h.2.2 j e₀ hj hj'
      cases he'
      cases long <;> exact this

theorem assigned_wrong {es : List (Entry ρ)} {pending : List Nat} {arg t : List Byte} {after : List (List Byte)} {k : Err}
    (h : Wrong es pending arg after k t) (log : List (Nat × Option (Val ρ))) : Wrong (assigned log es) pending arg after k t := by
  cases h with
  | @unknown long n tail _ hn ht hs hend hno =>
    refine .unknown hn ht hs hend ?_
    intro e' he'
    have : nameOf long e' ∈ (assigned log es).map (nameOf long) := List.mem_map.2 ⟨e', he', rfl⟩
    rw [assigned_map es log (nameOf long) (fun _ _ _ => by cases long <;> rfl)] at this
    obtain ⟨e, he, hq⟩ := List.mem_map.1 this
    rw [← hq]; exact hno e he
  | missing hn hi hk ha =>
    obtain ⟨e', hi', hk'⟩ := assigned_names hi log
    exact .missing hn hi' (by rw [hk']; exact hk) ha
  | extra hn hi hk =>
    obtain ⟨e', hi', hk'⟩ := assigned_names hi log
    exact .extra hn hi' (by rw [hk']; exact hk)
  | value hp hv hc hd hb => exact .value hp hv hc hd hb
  | stray hn hi hk hp ha =>
    obtain ⟨e', hi', hk'⟩ := assigned_names hi log
    exact .stray hn hi' (by rw [hk']; exact hk) hp ha

theorem loop_ok {toReal : List Byte → Except Fault ρ} {es : List (Entry ρ)} (hes : Table es) {pending left : List Nat} {items : List Item}
    {log : List (Nat × Option (Val ρ))} {errs : List (Err × List Byte)} (h : Line toReal es pending items log errs left)
    {a : List (List Byte × List Byte)} (ha : a.map Prod.fst = args items) {o : Opts ρ} {before : List (Nat × Option (Val ρ))}
    (ho : o.entries = assigned before es) (hp : Pending o pending) (err : Bool) :
    loop toReal false (mem a) o err = .ok ({ o with
      entries := assigned (before ++ log) es, positioned := (left.map (fun j => (o.blk, j))).reverse, errors := o.errors ++ errs },
      !(err || !errs.isEmpty)) := by
  induction h generalizing a o before err with
  | nil pending =>
    obtain rfl : a = [] := by cases a <;> simp_all [args]
    have hpp := hp.1
    obtain ⟨oe, ob, oc, op, oer⟩ := o
    simp only at ho hpp
    subst ho; subst hpp
    simp [mem, loop]
  | @flag pending left items log errs long n i e hn hi hk hpd rest ih =>
    cases a with
    | nil => simp [args, Item.args] at ha
    | cons y a =>
      obtain ⟨x1, x2⟩ := y
      simp only [args, List.flatMap_cons, Item.args, List.map_cons, List.singleton_append, List.cons.injEq] at ha
      obtain ⟨rfl, ha⟩ := ha
      obtain ⟨e', hi', hk'⟩ := assigned_names hi before
      rw [← ho] at hi'
      have hst := step_flag (toReal := toReal) (o := o) (by rw [ho]; exact assigned_table hes before) hn hi' (hk'.trans hk) x2 (a := a) (by
        intro h0
        rw [ha]
        apply hpd
        rw [hp.1] at h0
        simpa using h0)
      have e1 : mem ((dashes long ++ n, x2) :: a) = (dashes long ++ n ++ 0 :: x2) :: mem a := rfl
      rw [e1, loop, hst, except_ok_bind]
      dsimp only
      rw [ih ha (o := modify o i (put none)) (before := before ++ [(i, none)])
        (by rw [assigned_snoc, ← ho]; rfl) ⟨hp.1, hp.2.1, by simpa [modify] using hp.2.2⟩]
      simp [modify]
  | @joined pending left items log errs long n v i e x hn hi hx hv hl rest ih =>
    cases a with
    | nil => simp [args, Item.args] at ha
    | cons y a =>
      obtain ⟨x1, x2⟩ := y
      simp only [args, List.flatMap_cons, Item.args, List.map_cons, List.singleton_append, List.cons.injEq] at ha
      obtain ⟨rfl, ha⟩ := ha
      obtain ⟨e', hi', hk'⟩ := assigned_names hi before
      rw [← ho] at hi'
      have hst := step_joined (toReal := toReal) (o := o) (by rw [ho]; exact assigned_table hes before) hp hn hi' (by rw [hk']; exact hx) hv hl x2
        (mem a).head?
      have e1 : mem ((dashes long ++ n ++ 0x3d#8 :: v, x2) :: a) = (dashes long ++ n ++ 0x3d#8 :: v ++ 0 :: x2) :: mem a := rfl
      rw [e1, loop, hst, except_ok_bind]
      dsimp only
      rw [ih ha (o := { o with entries := o.entries.modify i (put (some x)), positioned := ((pending.erase i).map (fun j => (o.blk, j))).reverse })
        (before := before ++ [(i, some x)]) (by rw [assigned_snoc, ← ho]) (pending_erase hp i rfl (by simp) rfl)]
      simp
  | @apart pending left items log errs long n v i e x hn hi hx hv h0 hd hl rest ih =>
    match a, ha with
    | [], ha => simp [args, Item.args] at ha
    | [_], ha => simp [args, Item.args] at ha
    | (x1, x2) :: (y1, y2) :: a, hb =>
      simp only [args, List.flatMap_cons, Item.args, List.map_cons, List.cons_append, List.nil_append, List.cons.injEq] at hb
      obtain ⟨rfl, rfl, hb⟩ := hb
      obtain ⟨e', hi', hk'⟩ := assigned_names hi before
      rw [← ho] at hi'
      have hst := step_apart (toReal := toReal) (o := o) (by rw [ho]; exact assigned_table hes before) hp hn hi' (by rw [hk']; exact hx) hv h0 hd hl
        x2 y2
      have e1 : mem ((dashes long ++ n, x2) :: (y1, y2) :: a) = (dashes long ++ n ++ 0 :: x2) :: (y1 ++ 0 :: y2) :: mem a := rfl
      rw [e1, loop, List.head?_cons, hst, except_ok_bind]
      dsimp only
      rw [loop, ih hb (o := { o with entries := o.entries.modify i (put (some x)), positioned := ((pending.erase i).map (fun j => (o.blk, j))).reverse })
        (before := before ++ [(i, some x)]) (by rw [assigned_snoc, ← ho]) (pending_erase hp i rfl (by simp) rfl)]
      simp
  | @pos pending left items log errs v c i e x hi hx hv hc hd hb rest ih =>
    cases a with
    | nil => simp [args, Item.args] at ha
    | cons y a =>
      obtain ⟨x1, x2⟩ := y
      simp only [args, List.flatMap_cons, Item.args, List.map_cons, List.singleton_append, List.cons.injEq] at ha
      obtain ⟨rfl, ha⟩ := ha
      have hi' := assigned_getElem? hi before
      rw [← ho] at hi'
      have hst := step_pos (toReal := toReal) (o := o) (by rw [ho]; exact assigned_table hes before) hp hi' hx hv hc hd hb x2
        (mem a).head?
      have e1 : mem ((x1, x2) :: a) = (x1 ++ 0 :: x2) :: mem a := rfl
      rw [e1, loop, hst, except_ok_bind]
      dsimp only
      rw [ih ha (o := { o with entries := o.entries.modify i (put (some x)), positioned := (pending.map (fun j => (o.blk, j))).reverse })
        (before := before ++ [(i, some x)]) (by rw [assigned_snoc, ← ho])
        ⟨rfl, (List.nodup_cons.1 hp.2.1).2, fun j hj => by simpa using hp.2.2 j (List.mem_cons_of_mem _ hj)⟩]
      simp
  | @wrong pending left items log errs arg t k hw rest ih =>
    cases a with
    | nil => simp [args, Item.args] at ha
    | cons y a =>
      obtain ⟨x1, x2⟩ := y
      simp only [args, List.flatMap_cons, Item.args, List.map_cons, List.singleton_append, List.cons.injEq] at ha
      obtain ⟨rfl, ha⟩ := ha
      have ha' : a.map Prod.fst = args items := ha
      have hst := step_wrong (toReal := toReal) (o := o) (by rw [ho]; exact assigned_table hes before) hp
        (by rw [ho, ha']; exact assigned_wrong hw before) x2
      have e1 : mem ((x1, x2) :: a) = (x1 ++ 0 :: x2) :: mem a := rfl
      rw [e1, loop, hst, except_ok_bind]
      dsimp only
      rw [ih ha (o := pushError o t k) (before := before) ho hp]
      simp [pushError]

/-! ## Theorems -/

/-- **C53, a command line, partial.** For every table of options, every list of positionals among them and every command line made of flags, options with
values (joined by `=` or in the next argument), values for positionals, and wrong arguments, in any order: `zpl_opts_compile` gives every option the last
value the line has for it and marks exactly the options that occur as given, gives the positionals their values in order of registration, records
exactly the errors of the line, in order, and returns true iff there are none.  Missing: values ending in a backslash and empty values in an argument of their
own (`C53_backslash_faults`, `C53_empty_value_faults`), entries without a long name (`C53_no_long_name_faults`), values glued to a name by other
characters than `=`, blanks in front of an argument. -/
theorem C53_compile_partial {toReal : List Byte → Except Fault ρ} {o : Opts ρ} (hes : Table o.entries) {pending left : List Nat} (hp : Pending o pending)
    {items : List Item} {log : List (Nat × Option (Val ρ))} {errs : List (Err × List Byte)} (h : Line toReal o.entries pending items log errs left)
    {a : List (List Byte × List Byte)} (ha : a.map Prod.fst = args items) :
    compile toReal o (mem a) = .ok ({ o with
      entries := assigned log o.entries, positioned := (left.map (fun j => (o.blk, j))).reverse, errors := o.errors ++ errs }, errs.isEmpty) := by
  rw [compile, loop_ok hes h ha (before := []) (assigned_nil _).symm hp]
  simp

/-- **C53, reading the options.** By its long name an option is found; `zpl_opts_has_arg` tells whether it is marked as given, and the getters return its value then,
else the fallback. -/
theorem C53_get {o : Opts ρ} (hes : Table o.entries) {n : List Byte} {i : Nat} {e : Entry ρ} (hi : o.entries[i]? = some e) (hn : e.lname = some n)
    (r : List Byte) : hasArg o (n ++ 0 :: r) = .ok e.met ∧ getValue o (n ++ 0 :: r) = .ok (if e.met then some e.val else none) := by
  have ht : Text n := hes.2.1 e (List.mem_of_getElem? hi) n (.inl hn)
  have hN : Names o.entries true n i e := by
    refine ⟨hi, hn, ?_⟩
    intro j e' hj he' hc
    have := lname_inj hes he' hi (by rw [hn]; exact hc)
    omega
  have e0 : rd o.entries i = .ok e := by rw [rd, hi]
  simp only [hasArg, getValue, strlen_ok ht, except_ok_bind, find_ok hes ht hN, e0, and_self]

/-- **C53, other names.** A name no option has: not given, and the getters return the fallback. -/
theorem C53_get_unknown {o : Opts ρ} (hes : Table o.entries) {n : List Byte} (ht : Text n) (hno : ∀ e ∈ o.entries, e.lname ≠ some n)
    (r : List Byte) : hasArg o (n ++ 0 :: r) = .ok false ∧ getValue o (n ++ 0 :: r) = .ok none := by
  simp only [hasArg, getValue, strlen_ok ht, except_ok_bind, find_none hes ht (long := true) hno, and_self]

/-- **C53, positionals.** After a command line the positionals are filled iff none is left over. -/
theorem C53_filled {o : Opts ρ} {left : List Nat} (h : o.positioned = (left.map (fun j => (o.blk, j))).reverse) :
    positionalsFilled o = true ↔ left = [] := by
  simp [positionalsFilled, h]

/-- **C53, registering options.** Any number of options, registered in a row, are all in the table, in order, none of them given. -/
theorem C53_register (os : List (Option (List Byte) × Option (List Byte) × Kind)) (o : Opts ρ) :
    (os.foldl (fun o x => add o x.1 x.2.1 x.2.2) o).entries = o.entries ++ os.map (fun x => { name := x.1, lname := x.2.1, kind := x.2.2 }) ∧
    (os.foldl (fun o x => add o x.1 x.2.1 x.2.2) o).positioned = o.positioned ∧
    (os.foldl (fun o x => add o x.1 x.2.1 x.2.2) o).errors = o.errors := by
  induction os generalizing o with
  | nil => simp
  | cons x os ih =>
    have h1 : (add o x.1 x.2.1 x.2.2).entries = o.entries ++ [{ name := x.1, lname := x.2.1, kind := x.2.2 }] := by
      rw [add]; split <;> rfl
    have h2 : (add o x.1 x.2.1 x.2.2).positioned = o.positioned ∧ (add o x.1 x.2.1 x.2.2).errors = o.errors := by
      rw [add]; split <;> exact ⟨rfl, rfl⟩
    rw [List.foldl_cons]
    obtain ⟨i1, i2, i3⟩ := ih (add o x.1 x.2.1 x.2.2)
    rw [i1, i2, i3, h1, h2.1, h2.2]
    simp

/-- **C53, registering a positional.** It comes after those registered before; nothing else changes.  (The option must be in the table already, and not be registered
as a positional twice.) -/
theorem C53_positional {o : Opts ρ} (hes : Table o.entries) {pending : List Nat} (hp : Pending o pending) {n : List Byte} {i : Nat} {e : Entry ρ}
    (hi : o.entries[i]? = some e) (hn : e.lname = some n) (hnew : i ∉ pending) (r : List Byte) :
    ∃ o', positionalAdd o (n ++ 0 :: r) = .ok o' ∧ Pending o' (pending ++ [i]) ∧ o'.errors = o.errors ∧ Table o'.entries ∧
      o'.entries.map (fun e => (e.name, e.lname, e.kind, e.met, e.val)) = o.entries.map (fun e => (e.name, e.lname, e.kind, e.met, e.val)) := by
  have ht : Text n := hes.2.1 e (List.mem_of_getElem? hi) n (.inl hn)
  have hN : Names o.entries true n i e := by
    refine ⟨hi, hn, ?_⟩
    intro j e' hj he' hc
    have := lname_inj hes he' hi (by rw [hn]; exact hc)
    omega
  have hil : i < o.entries.length := (List.getElem?_eq_some_iff.1 hi).1
  refine ⟨{ modify o i (fun e => { e with pos := true }) with positioned := (o.blk, i) :: o.positioned }, ?_, ?_, ?_, ?_, ?_⟩
  · simp only [positionalAdd, strlen_ok ht, except_ok_bind, find_ok hes ht hN]
  · refine ⟨?_, ?_, ?_⟩
    · simp [modify, hp.1]
    · rw [List.nodup_append]
      refine ⟨hp.2.1, by simp, ?_⟩
      intro a ha b hb
      simp at hb; subst hb
      rintro rfl
      exact hnew ha
    · intro j hj
      rcases List.mem_append.1 hj with h | h
      · simpa [modify] using hp.2.2 j h
      · simp at h; subst h; simpa [modify] using hil
  · rfl
  · exact table_same (map_modify_same _ _ _ (fun _ => rfl)) hes
  · exact map_modify_same _ _ _ (fun _ => rfl)

/-- What no run of `zpl_opts_compile` changes, whatever the arguments: the names and types; no option given before is forgotten; errors are only added. -/
def Keeps (o o' : Opts ρ) (new : List (Err × List Byte)) : Prop :=
  o'.entries.map (fun e => (e.name, e.lname, e.kind, e.pos)) = o.entries.map (fun e => (e.name, e.lname, e.kind, e.pos)) ∧
  (∀ (i : Nat) (e : Entry ρ), o.entries[i]? = some e → e.met = true → ∃ e', o'.entries[i]? = some e' ∧ e'.met = true) ∧
  (∃ gone, (o'.positioned ++ gone).Perm o.positioned) ∧ o'.blk = o.blk ∧ o'.errors = o.errors ++ new

theorem Keeps.refl (o : Opts ρ) : Keeps o o [] := ⟨rfl, fun i e h h' => ⟨e, h, h'⟩, ⟨[], by simp⟩, rfl, by simp⟩

theorem Keeps.trans {a b c : Opts ρ} {x y : List (Err × List Byte)} (h : Keeps a b x) (k : Keeps b c y) : Keeps a c (x ++ y) := by
  obtain ⟨h1, h2, ⟨g, h3⟩, h4, h5⟩ := h
  obtain ⟨k1, k2, ⟨g', k3⟩, k4, k5⟩ := k
  refine ⟨k1.trans h1, ?_, ⟨g' ++ g, ?_⟩, k4.trans h4, by rw [k5, h5, List.append_assoc]⟩
  · intro i e he hm
    obtain ⟨e', he', hm'⟩ := h2 i e he hm
    exact k2 i e' he' hm'
  · rw [← List.append_assoc]
    exact (k3.append_right g).trans h3

theorem keeps_push (o : Opts ρ) (t : List Byte) (k : Err) : Keeps o (pushError o t k) [(k, t)] :=
  ⟨rfl, fun i e h h' => ⟨e, h, h'⟩, ⟨[], by simp [pushError]⟩, rfl, rfl⟩

theorem keeps_modify (o : Opts ρ) (i : Nat) {f : Entry ρ → Entry ρ}
    (hf : ∀ e, (f e).name = e.name ∧ (f e).lname = e.lname ∧ (f e).kind = e.kind ∧ (f e).pos = e.pos ∧ (f e).met = true) :
    Keeps o (modify o i f) [] := by
  refine ⟨map_modify_same _ _ _ ?_, ?_, ⟨[], by simp [modify]⟩, rfl, by simp [modify]⟩
  · intro e
    obtain ⟨h1, h2, h3, h4, -⟩ := hf e
    rw [h1, h2, h3, h4]
  · intro j e he hm
    rw [modify]
    dsimp only
    rw [List.getElem?_modify, he]
    by_cases h : i = j
    · exact ⟨f e, by simp [h], (hf e).2.2.2.2⟩
    · exact ⟨e, by simp [h], hm⟩

theorem dropPending_perm {o : Opts ρ} {t : Option (List Byte)} {ps qs : List (Nat × Nat)} (h : dropPending o t ps = .ok qs) :
    ∃ gone, (qs ++ gone).Perm ps := by
  induction ps generalizing qs with
  | nil => rw [dropPending] at h; cases h; exact ⟨[], by simp⟩
  | cons p ps ih =>
    rw [dropPending] at h
    cases h1 : deref o p with
    | error => rw [h1] at h; simp at h
    | ok i =>
      rw [h1, except_ok_bind] at h
      cases h2 : rd o.entries i with
      | error => rw [h2] at h; simp at h
      | ok e =>
        rw [h2, except_ok_bind] at h
        cases h3 : sameName e.lname t with
        | error => rw [h3] at h; simp at h
        | ok b =>
          rw [h3, except_ok_bind] at h
          cases b with
          | true =>
            rw [if_pos rfl] at h
            cases h
            refine ⟨[p], ?_⟩
            exact List.perm_append_comm
          | false =>
            rw [if_neg (by decide)] at h
            cases h4 : dropPending o t ps with
            | error => rw [h4] at h; simp at h
            | ok rs =>
              rw [h4, except_ok_bind] at h
              cases h
              obtain ⟨g, hg⟩ := ih h4
              exact ⟨g, hg.cons p⟩

theorem keeps_setValue {toReal : List Byte → Except Fault ρ} {o o' : Opts ρ} {t : Nat} {b : List Byte} (h : setValue toReal o t b = .ok o') :
    Keeps o o' [] := by
  rw [setValue] at h
  cases h1 : rd o.entries t with
  | error => rw [h1] at h; simp at h
  | ok e =>
    rw [h1, except_ok_bind] at h
    cases h2 : convert toReal e.kind e.val b with
    | error => rw [h2] at h; simp at h
    | ok v =>
      rw [h2, except_ok_bind] at h
      dsimp only at h
      cases h3 : dropPending (modify o t (fun e => { e with met := true, val := v })) e.lname o.positioned with
      | error => rw [show (modify o t (fun e => { e with met := true, val := v })).positioned = o.positioned from rfl, h3] at h; simp at h
      | ok ps =>
        rw [show (modify o t (fun e => { e with met := true, val := v })).positioned = o.positioned from rfl, h3, except_ok_bind] at h
        cases h
        obtain ⟨k1, k2, -, k4, k5⟩ := keeps_modify o t (f := fun e => { e with met := true, val := v }) (fun e => ⟨rfl, rfl, rfl, rfl, rfl⟩)
        exact ⟨k1, k2, dropPending_perm h3, k4, k5⟩

theorem keeps_assign {toReal : List Byte → Except Fault ρ} {o o' : Opts ρ} {t : Nat} {p : Option Byte} {b : List Byte}
    (h : assign toReal o t p b = .ok o') : Keeps o o' [] := by
  rw [assign] at h
  cases h1 : skipValue p b with
  | error => rw [h1] at h; simp at h
  | ok k => rw [h1, except_ok_bind] at h; exact keeps_setValue h

/-- What one argument can do. -/
def Steps (o : Opts ρ) (r : Except Fault (Opts ρ × Bool × Bool)) : Prop :=
  ∀ o' e s, r = .ok (o', e, s) → ∃ new, Keeps o o' new ∧ (e = true ↔ new ≠ [])

theorem steps_push {o : Opts ρ} {t : Except Fault (List Byte)} {k : Err} {s : Bool} :
    Steps o (do .ok (pushError o (← t) k, true, s)) := by
  intro o' e s' h
  cases ht : t with
  | error => rw [ht] at h; simp at h
  | ok t =>
    rw [ht, except_ok_bind] at h
    cases h
    exact ⟨_, keeps_push o t k, by simp⟩

theorem steps_assign {toReal : List Byte → Except Fault ρ} {o : Opts ρ} {t : Nat} {p : Option Byte} {b : List Byte} {s : Bool} :
    Steps o (do .ok (← assign toReal o t p b, false, s)) := by
  intro o' e s' h
  cases ht : assign toReal o t p b with
  | error => rw [ht] at h; simp at h
  | ok t =>
    rw [ht, except_ok_bind] at h
    cases h
    exact ⟨_, keeps_assign ht, by simp⟩

theorem steps_noValue {o : Opts ρ} {t : Nat} {k : Kind} {ob : List Byte} : Steps o (noValue o t k ob) := by
  rw [noValue]
  split
  · exact steps_push
  · intro o' e s h
    cases h
    exact ⟨_, keeps_modify o t (fun e => ⟨rfl, rfl, rfl, rfl, rfl⟩), by simp⟩

theorem steps_separate {toReal : List Byte → Except Fault ρ} {o : Opts ρ} {t : Nat} {k : Kind} {ob b : List Byte} {next : Option (List Byte)} :
    Steps o (separate toReal o t k ob b next) := by
  cases next with
  | none => exact steps_noValue
  | some sp =>
    rw [separate]
    cases rd sp 0 with
    | error => intro o' e s h; simp at h
    | ok c =>
      rw [except_ok_bind]
      split
      · split
        · exact steps_push
        · exact steps_assign
      · exact steps_noValue

theorem steps_known {toReal : List Byte → Except Fault ρ} {o : Opts ρ} {t len : Nat} {ob : List Byte} {next : Option (List Byte)} :
    Steps o (known toReal o t len ob next) := by
  rw [known]
  cases rd o.entries t with
  | error => intro o' e s h; simp at h
  | ok e =>
    rw [except_ok_bind]
    cases rd ob len with
    | error => intro o' e s h; simp at h
    | ok c =>
      rw [except_ok_bind]
      split
      · split
        · intro o' e s h
          cases h
          exact ⟨_, keeps_push _ _ _, by simp⟩
        · exact steps_assign
      · split
        · exact steps_separate
        · exact steps_assign

theorem steps_step {toReal : List Byte → Except Fault ρ} {o : Opts ρ} {p : List Byte} {next : Option (List Byte)} :
    Steps o (step toReal o p next) := by
  rw [step]
  cases rd p 0 with
  | error => intro o' e s h; simp at h
  | ok c =>
    rw [except_ok_bind]
    split
    · intro o' e s h
      cases h
      exact ⟨_, Keeps.refl o, by simp⟩
    · cases Token.trim false p with
      | error => intro o' e s h; simp at h
      | ok k =>
        rw [except_ok_bind]
        cases rd p k with
        | error => intro o' e s h; simp at h
        | ok c =>
          rw [except_ok_bind]
          split
          · rw [option]
            cases rd (p.drop k) 1 with
            | error => intro o' e s h; simp at h
            | ok c =>
              rw [except_ok_bind]
              dsimp only
              generalize (if decide (c = 0x2d#8) = true then List.drop 2 (List.drop k p) else List.drop 1 (List.drop k p)) = b
              cases nameLen b with
              | error => intro o' e s h; simp at h
              | ok len =>
                rw [except_ok_bind]
                cases find o b len (decide (c = 0x2d#8)) with
                | error => intro o' e s h; simp at h
                | ok f =>
                  rw [except_ok_bind]
                  cases f with
                  | some t => exact steps_known
                  | none => exact steps_push
          · rw [positional]
            split
            · rename_i l hl
              dsimp only
              intro o' e s h
              cases h1 : deref { o with positioned := o.positioned.dropLast } l with
              | error => rw [h1] at h; simp at h
              | ok t =>
                rw [h1, except_ok_bind] at h
                cases h2 : setValue toReal { o with positioned := o.positioned.dropLast } t (p.drop k) with
                | error => rw [h2] at h; simp at h
                | ok o2 =>
                  rw [h2, except_ok_bind] at h
                  cases h
                  obtain ⟨k1, k2, k3, k4, k5⟩ := keeps_setValue h2
                  refine ⟨[], ⟨k1, k2, ?_, k4, k5⟩, by simp⟩
                  obtain ⟨g, hg⟩ := k3
                  refine ⟨g ++ [l], ?_⟩
                  rw [← List.append_assoc]
                  have := hg.append_right [l]
                  dsimp only at this
                  obtain ⟨ys, hys⟩ := List.getLast?_eq_some_iff.1 hl
                  rw [hys, List.dropLast_concat] at this
                  rwa [hys]
            · exact steps_push

theorem keeps_loop {toReal : List Byte → Except Fault ρ} {args : List (List Byte)} {skip : Bool} {o o' : Opts ρ} {err r : Bool}
    (h : loop toReal skip args o err = .ok (o', r)) : ∃ new, Keeps o o' new ∧ (r = true ↔ err = false ∧ new = []) := by
  induction args generalizing skip o err with
  | nil =>
    rw [loop.eq_def] at h
    cases h
    exact ⟨[], Keeps.refl _, by simp⟩
  | cons p ps ih =>
    cases skip with
    | true =>
      rw [loop] at h
      exact ih h
    | false =>
      rw [loop] at h
      cases hs : step toReal o p ps.head? with
      | error => rw [hs] at h; simp at h
      | ok t =>
        obtain ⟨o1, e, s⟩ := t
        rw [hs, except_ok_bind] at h
        dsimp only at h
        obtain ⟨n1, k1, j1⟩ := steps_step o1 e s hs
        obtain ⟨n2, k2, j2⟩ := ih h
        refine ⟨n1 ++ n2, k1.trans k2, ?_⟩
        rw [j2]
        cases e with
        | true => simp; intro _ h1; exact absurd h1 (j1.1 rfl)
        | false =>
          have : n1 = [] := Classical.byContradiction (fun hn => by simpa using j1.2 hn)
          simp [this]

/-- **C53, every command line.** Whatever the arguments and the table: when `zpl_opts_compile` returns, it has kept the names and types of all options, unmarked none,
recorded errors behind those recorded before, taken positionals only from those registered, and the result is true iff it recorded no error. -/
theorem C53_result {toReal : List Byte → Except Fault ρ} {o o' : Opts ρ} {args : List (List Byte)} {r : Bool}
    (h : compile toReal o args = .ok (o', r)) : ∃ new, Keeps o o' new ∧ (r = true ↔ new = []) := by
  obtain ⟨new, k, j⟩ := keeps_loop h
  exact ⟨new, k, by simpa using j⟩

/-! ## Where the code departs from the property -/

/-- **C53 fails for values ending in a backslash.** `--name=value\` reads behind the end of the argument. -/
theorem C53_backslash_faults {toReal : List Byte → Except Fault ρ} {o : Opts ρ} (ho : Table o.entries) {long : Bool} {n v : List Byte} {i : Nat}
    {e : Entry ρ} (hn : Sayable long n) (hi : Names o.entries long n i e) (hk : e.kind ≠ .flag) (hv : Text v) :
    compile toReal o [dashes long ++ n ++ 0x3d#8 :: (v ++ [0x5c#8]) ++ [0]] = .error .oob := by
  have := step_name (toReal := toReal) (s := 0x3d#8 :: (v ++ [0x5c#8])) ho hn hi (.inr ⟨_, rfl⟩) [] none
  have e0 : rd o.entries i = .ok e := by rw [rd, hi.1]
  have e1 : dashes long ++ n ++ 0x3d#8 :: (v ++ [0x5c#8]) ++ [0] = dashes long ++ (n ++ 0x3d#8 :: (v ++ [0x5c#8])) ++ [0] := by simp
  have e2 : n ++ 0x3d#8 :: (v ++ [0x5c#8]) ++ [0] = n ++ 0x3d#8 :: (v ++ [0x5c#8] ++ [0]) := by simp
  have e3 : (n ++ 0x3d#8 :: (v ++ [0x5c#8] ++ [0])).drop (n.length + 1) = v ++ [0x5c#8] ++ [0] := by
    rw [List.drop_append, List.drop_eq_nil_of_le (by omega)]
    simp
  have e4 : ∀ p, Token.controlSkip 0 p (v ++ [0x5c#8] ++ [0]) = .error .oob := by
    clear this e1 e2 e3
    induction v with
    | nil =>
      intro p
      rw [List.nil_append, List.singleton_append, Token.controlSkip, if_pos (by decide)]
      decide
    | cons c v ih =>
      intro p
      have hc := Text.cons.1 hv
      rw [List.cons_append, List.cons_append, Token.controlSkip, if_pos ⟨hc.1, hc.1⟩, ih hc.2]
      rfl
  have e5 : skipValue (some 0x3d#8) (v ++ [0x5c#8] ++ [0]) = .error .oob := by
    rw [skipValue, rd_ok (by simp), except_ok_bind]
    exact e4 _
  rw [compile, loop, List.head?_nil, e1, this, known, e0, except_ok_bind, e2, rd_at, except_ok_bind, if_pos rfl, if_neg hk, e3, assign, e5]
  rfl

/-- **C53 fails for empty values.** An empty argument after an option that takes a value: the byte before the argument is read. -/
theorem C53_empty_value_faults {toReal : List Byte → Except Fault ρ} {o : Opts ρ} (ho : Table o.entries) {long : Bool} {n : List Byte} {i : Nat}
    {e : Entry ρ} (hn : Sayable long n) (hi : Names o.entries long n i e) (hk : e.kind ≠ .flag) (r r' : List Byte) (more : List (List Byte)) :
    compile toReal o ((dashes long ++ n ++ 0 :: r) :: (0 :: r') :: more) = .error .oob := by
  have := step_name (toReal := toReal) (s := []) ho hn hi (.inl rfl) r (some (0 :: r'))
  rw [List.append_nil] at this
  have e0 : rd o.entries i = .ok e := by rw [rd, hi.1]
  rw [compile, loop, List.head?_cons, this, known, e0, except_ok_bind, rd_at, except_ok_bind, if_neg (by decide), if_pos rfl, separate]
  rw [rd_ok (by simp), except_ok_bind, List.getElem_cons_zero, if_pos ⟨by decide, .inr hk⟩, if_neg hk, assign, skipValue, rd_ok (by simp)]
  rfl

/-- **C53 fails for options without a long name.** While a positional is pending, giving a value to an option registered with a short name only
compares a null pointer. -/
theorem C53_no_long_name_faults {toReal : List Byte → Except Fault ρ} {o : Opts ρ} {i : Nat} {e : Entry ρ} (hi : o.entries[i]? = some e)
    (hnull : e.lname = none) {v : List Byte} {x : Val ρ} (hx : Reads toReal e.kind v x) (hv : Text v)
    {p : Nat × Nat} (hp : o.positioned.head? = some p) (r : List Byte) :
    setValue toReal o i (v ++ 0 :: r) = .error .ub := by
  have e0 : rd o.entries i = .ok e := by rw [rd, hi]
  rw [setValue, e0, except_ok_bind, convert_ok hx hv, except_ok_bind]
  dsimp only
  rw [show (modify o i (fun e => { e with met := true, val := x })).positioned = o.positioned from rfl]
  cases hps : o.positioned with
  | nil => rw [hps] at hp; simp at hp
  | cons q ps =>
    rw [dropPending, hnull]
    rw [deref]
    split
    · rename_i h
      rw [except_ok_bind, rd_ok h.2, except_ok_bind]
      have : ∀ a, sameName a none = .error .ub := by intro a; cases a <;> rfl
      rw [this]; rfl
    · rfl

/-- **C53 fails when options are registered after positionals.** If the table is full when one more option is registered, the addresses of the positionals are left
dangling: the first positional value is written through a stale pointer. -/
theorem C53_dangling_positional {toReal : List Byte → Except Fault ρ} {o : Opts ρ} {pending : List Nat} {i : Nat} (hp : Pending o (i :: pending))
    (hfull : o.cap = o.entries.length) (name lname : Option (List Byte)) (k : Kind) {v : List Byte} {c : Byte} (hv : Text v) (hc : v.head? = some c)
    (hd : c ≠ 0x2d#8) (hb : ¬ Token.Blank c) (r : List Byte) (more : List (List Byte)) :
    compile toReal (add o name lname k) ((v ++ 0 :: r) :: more) = .error .ub := by
  have h1 : (add o name lname k).positioned = (pending.map (fun j => (o.blk, j))).reverse ++ [(o.blk, i)] := by
    have : (add o name lname k).positioned = o.positioned := by rw [add]; split <;> rfl
    rw [this, hp.1]; simp
  have h2 : (add o name lname k).blk = o.blk + 1 := by
    simp [add, hfull]
  rw [compile, loop, step_plain hv hc hd hb, positional, h1]
  simp only [List.getLast?_append, List.getLast?_singleton, Option.some_or]
  rw [deref, if_neg]
  · rfl
  · rintro ⟨h, -⟩
    dsimp only at h
    rw [h2] at h
    omega

/-- **C53 fails for stray values.** A flag with a value behind it that nothing takes: the error recorded does not name the flag, its text is empty. -/
theorem C53_stray_value_unnamed {toReal : List Byte → Except Fault ρ} {o : Opts ρ} (ho : Table o.entries) (hp : Pending o []) {long : Bool}
    {n v : List Byte} {i : Nat} {e : Entry ρ} (hn : Sayable long n) (hi : Names o.entries long n i e) (hk : e.kind = .flag) {c : Byte} (hv : Text v)
    (hc : v.head? = some c) (hd : c ≠ 0x2d#8) (hb : ¬ Token.Blank c) :
    compile toReal o (mem [(dashes long ++ n, []), (v, [])]) =
      .ok ({ o with errors := o.errors ++ [(.extra, []), (.value, v)], positioned := [] }, false) := by
  have := C53_compile_partial (toReal := toReal) ho hp (items := [.wrong (dashes long ++ n), .wrong v])
    (.wrong (.stray (a := v) (after := []) hn hi hk rfl (by rw [hc]; simpa using hd)) (.wrong (.value rfl hv hc hd hb) (.nil [])))
    (a := [(dashes long ++ n, []), (v, [])]) rfl
  rw [this]
  simp [assigned_nil]

/-! ## The hypotheses are met -/

/-- A table with a flag `-f`/`--flag`, an integer `--num` and a text `-o`/`--out`. -/
def demo : List (Entry Nat) :=
  [{ name := some [0x66#8], lname := some [0x66#8, 0x6c#8, 0x61#8, 0x67#8], kind := .flag },
   { name := none, lname := some [0x6e#8, 0x75#8, 0x6d#8], kind := .int },
   { name := some [0x6f#8], lname := some [0x6f#8, 0x75#8, 0x74#8], kind := .string }]

/-- It is a table. -/
theorem demo_table : Table demo := by
  refine ⟨?_, ?_, ?_⟩
  · intro e he
    simp only [demo, List.mem_cons, List.not_mem_nil, or_false] at he
    rcases he with rfl | rfl | rfl <;> exact ⟨_, rfl⟩
  · intro e he n hn c hc
    simp only [demo, List.mem_cons, List.not_mem_nil, or_false] at he
    rcases he with rfl | rfl | rfl <;> rcases hn with h | h <;> cases h <;> revert c <;> decide
  · decide

/-- `-42` is read as an integer. -/
theorem demo_int : Reads (fun _ => .error .ub : List Byte → Except Fault Nat) .int [0x2d#8, 0x34#8, 0x32#8] (.int (-42)) := by
  refine .int ?_
  intro rest
  have := Num.C25_i64_partial (s := [0x2d#8, 0x34#8, 0x32#8]) (by intro c; revert c; decide) rest (base := 10) (by decide)
  exact ⟨_, this⟩

theorem demo_names0 : Names demo false [0x66#8] 0 (demo[0]'(by decide)) := ⟨rfl, rfl, fun j _ hj => by omega⟩

theorem demo_names1 : Names demo true [0x6e#8, 0x75#8, 0x6d#8] 1 (demo[1]'(by decide)) := by
  refine ⟨rfl, rfl, ?_⟩
  intro j e hj he
  obtain rfl : j = 0 := by omega
  cases he
  decide

/-- `-f --num=-42 x --bad --num`, where `out` is a positional: the flag, the number and the text are given, `bad` is unknown, and the second `--num` lacks its value. -/
theorem demo_line : Line (fun _ => .error .ub : List Byte → Except Fault Nat) demo [2]
    [.flag false [0x66#8], .joined true [0x6e#8, 0x75#8, 0x6d#8] [0x2d#8, 0x34#8, 0x32#8], .pos [0x78#8],
      .wrong [0x2d#8, 0x2d#8, 0x62#8, 0x61#8, 0x64#8], .wrong [0x2d#8, 0x2d#8, 0x6e#8, 0x75#8, 0x6d#8]]
    [(0, none), (1, some (.int (-42))), (2, some (.text [0x78#8]))]
    [(.option, [0x62#8, 0x61#8, 0x64#8]), (.missing, [0x6e#8, 0x75#8, 0x6d#8])] [] := by
  have hs : Sayable true [0x6e#8, 0x75#8, 0x6d#8] := ⟨by intro c; revert c; decide, by decide⟩
  refine .flag ⟨by intro c; revert c; decide, by decide⟩ demo_names0 rfl (fun h => by cases h) ?_
  refine .joined hs demo_names1 demo_int (by intro c; revert c; decide) (by decide) ?_
  refine .pos (e := demo[2]'(by decide)) (c := 0x78#8) rfl (.string _) (by intro c; revert c; decide) rfl (by decide) (by unfold Token.Blank; decide) ?_
  refine .wrong (.unknown (long := true) (n := [0x62#8, 0x61#8, 0x64#8]) (tail := []) (by intro c; revert c; decide) (by intro c; revert c; decide)
    (by decide) (by simp) ?_) ?_
  · intro e he
    simp only [demo, List.mem_cons, List.not_mem_nil, or_false] at he
    rcases he with rfl | rfl | rfl <;> decide
  · refine .wrong (.missing (long := true) hs demo_names1 (by decide) ?_) (.nil [])
    intro a ha
    cases ha

/-- Running it: false, with both errors recorded. -/
example : compile (fun _ => .error .ub) ⟨demo, 0, 8, [(0, 2)], []⟩
      (mem [([0x2d#8, 0x66#8], []), ([0x2d#8, 0x2d#8, 0x6e#8, 0x75#8, 0x6d#8, 0x3d#8, 0x2d#8, 0x34#8, 0x32#8], []), ([0x78#8], [1]),
        ([0x2d#8, 0x2d#8, 0x62#8, 0x61#8, 0x64#8], []), ([0x2d#8, 0x2d#8, 0x6e#8, 0x75#8, 0x6d#8], [])]) =
    .ok (⟨assigned [(0, none), (1, some (.int (-42))), (2, some (.text [0x78#8]))] demo, 0, 8, [],
      [(.option, [0x62#8, 0x61#8, 0x64#8]), (.missing, [0x6e#8, 0x75#8, 0x6d#8])]⟩, false) :=
  C53_compile_partial (o := ⟨demo, 0, 8, [(0, 2)], []⟩) demo_table ⟨rfl, by decide, by decide⟩ demo_line rfl

/-- The number can be read back, by its long name. -/
example : getValue ⟨assigned [(1, some (.int (-42)))] demo, 0, 8, [], []⟩ [0x6e#8, 0x75#8, 0x6d#8, 0] = .ok (some (.int (-42))) :=
  (C53_get (o := ⟨assigned [(1, some (.int (-42)))] demo, 0, 8, [], []⟩) (assigned_table demo_table _) (i := 1) rfl rfl []).2

/-- A positional is registered behind those there are. -/
example : ∃ o', positionalAdd ⟨demo, 0, 8, [(0, 2)], []⟩ [0x6e#8, 0x75#8, 0x6d#8, 0] = .ok o' ∧ Pending o' [2, 1] := by
  obtain ⟨o', h1, h2, -⟩ := C53_positional (o := ⟨demo, 0, 8, [(0, 2)], []⟩) demo_table (pending := [2]) ⟨rfl, by decide, by decide⟩ (i := 1) rfl rfl
    (by decide) []
  exact ⟨o', h1, h2⟩

/-- Eight options fill the table of a new parser, and one more makes the positional dangle. -/
example : compile (fun _ => .error .ub : List Byte → Except Fault Nat)
    (add ⟨List.replicate 8 { name := none, lname := some [0x61#8], kind := .string }, 0, 8, [(0, 3)], []⟩ none (some [0x62#8]) .string)
    [[0x78#8, 0]] = .error .ub :=
  C53_dangling_positional (pending := []) (i := 3) (o := ⟨List.replicate 8 { name := none, lname := some [0x61#8], kind := .string }, 0, 8, [(0, 3)], []⟩)
    ⟨rfl, by decide, by decide⟩ rfl none (some [0x62#8]) .string (v := [0x78#8]) (c := 0x78#8) (by intro c; revert c; decide) rfl (by decide)
    (by unfold Token.Blank; decide) [] []

/-- An option with a short name only, while a positional is pending. -/
example : setValue (fun _ => .error .ub : List Byte → Except Fault Nat)
    ⟨[{ name := some [0x61#8], lname := none, kind := .string }, { name := none, lname := some [0x62#8], kind := .string }], 0, 8, [(0, 1)], []⟩ 0
    [0x78#8, 0] = .error .ub :=
  C53_no_long_name_faults (v := [0x78#8]) rfl rfl (.string [0x78#8]) (by intro c; revert c; decide) rfl []

/-- `--num=1\`, `--num ""` and `-f x`. -/
example : compile (fun _ => .error .ub) ⟨demo, 0, 8, [], []⟩ [[0x2d#8, 0x2d#8, 0x6e#8, 0x75#8, 0x6d#8, 0x3d#8, 0x31#8, 0x5c#8, 0]] = .error .oob :=
  C53_backslash_faults (o := ⟨demo, 0, 8, [], []⟩) demo_table (long := true) ⟨by intro c; revert c; decide, by decide⟩ demo_names1 (by decide)
    (v := [0x31#8]) (by intro c; revert c; decide)
example : compile (fun _ => .error .ub) ⟨demo, 0, 8, [], []⟩ [[0x2d#8, 0x2d#8, 0x6e#8, 0x75#8, 0x6d#8, 0], [0]] = .error .oob :=
  C53_empty_value_faults (o := ⟨demo, 0, 8, [], []⟩) demo_table (long := true) ⟨by intro c; revert c; decide, by decide⟩ demo_names1 (by decide)
    [] [] []
example : compile (fun _ => .error .ub) ⟨demo, 0, 8, [], []⟩ [[0x2d#8, 0x66#8, 0], [0x78#8, 0]] =
    .ok (⟨demo, 0, 8, [], [(.extra, []), (.value, [0x78#8])]⟩, false) :=
  C53_stray_value_unnamed (o := ⟨demo, 0, 8, [], []⟩) demo_table ⟨rfl, by decide, by decide⟩ (long := false)
    ⟨by intro c; revert c; decide, by decide⟩ demo_names0 rfl (v := [0x78#8]) (c := 0x78#8) (by intro c; revert c; decide) rfl (by decide)
    (by unfold Token.Blank; decide)

end Zpl.Opts
