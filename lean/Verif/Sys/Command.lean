import Verif.Str.ZString

/-!
# Environment variables and commands (code/source/core/misc.c)  -  C133

The Unix variant.  The environment is the list of names and values that the C library keeps; a command is the bytes it prints, or nothing when it cannot be started.

## Model -/

namespace Zpl.Command

open Zpl Str ZString

/-- The environment: names and values, without the NUL behind them. -/
abbrev Env := List (List Byte × List Byte)

/-- `getenv` -/
def getenv (env : Env) (name : List Byte) : Option (List Byte) := (env.find? fun p => p.1 == name).map Prod.snd

/-- `setenv(name, value, 1)`: a name that is empty or has an `=` in it is refused. -/
def setenv (env : Env) (name value : List Byte) : Env :=
  if name = [] ∨ 0x3d#8 ∈ name then env
  else if env.any (fun p => p.1 == name) then env.map (fun p => if p.1 = name then (name, value) else p) else env ++ [(name, value)]

/-- `unsetenv(name)` -/
def unsetenv (env : Env) (name : List Byte) : Env := if name = [] ∨ 0x3d#8 ∈ name then env else env.filter fun p => p.1 ≠ name

/-- misc.c:28-45 `zpl_get_env_buf`: the block from the value on; `behind` is what follows it in memory. -/
def getEnvBuf (behind : List Byte) (env : Env) (name : List Byte) : Option (List Byte) := (getenv env name).map fun v => v ++ 0 :: behind

/-- misc.c:14-26 `zpl_get_env`: a new block with the value; `junk` are the bytes of a block fresh from the allocator. -/
def getEnv (junk : Nat → Byte) (behind : List Byte) (env : Env) (name : List Byte) : Except Fault (Option (List Byte)) :=
  match getEnvBuf behind env name with
  | none => .ok none
  | some ptr => do
    let size ← strlen ptr
    let buffer ← put (fresh junk (size + 1)) 0 ptr (size + 1)
    .ok (some buffer)

/-- misc.c:47-56 `zpl_get_env_str` -/
def getEnvStr (junk : Nat → Byte) (behind : List Byte) (env : Env) (name : List Byte) : Except Fault (Option ZStr) :=
  match getEnvBuf behind env name with
  | none => .ok none
  | some ptr => do
    let z ← ZString.make junk (some ptr)
    .ok (some z)

/-- misc.c:58-64 `zpl_set_env` -/
def setEnv (env : Env) (name value : List Byte) : Env := setenv env name value

/-- misc.c:66-72 `zpl_unset_env` -/
def unsetEnv (env : Env) (name : List Byte) : Env := unsetenv env name

/-- misc.c:93-95 the loop: the bytes that are left, and where the next one goes. -/
def commandLoop (bufferLen : Nat) : List Byte → Nat → List Byte → Except Fault (List Byte)
  | [], _, buffer => .ok buffer
  | c :: out, i, buffer =>
    if i < bufferLen then do
      let buffer ← wr buffer i c
      commandLoop bufferLen out (i + 1) buffer
    else .ok buffer

/-- misc.c:78-106 `zpl_system_command` -/
def systemCommand (out : Option (List Byte)) (bufferLen : Nat) (buffer : List Byte) : Except Fault (List Byte × Nat) :=
  match out with
  | none => .ok (buffer, 0)
  | some out => do
    let buffer ← commandLoop bufferLen out 0 buffer
    .ok (buffer, 1)

/-- misc.c:124-127 the loop. -/
def commandStrLoop (junk : Nat → Byte) : List Byte → ZStr → Except Fault ZStr
  | [], z => .ok z
  | c :: out, z => do
    let z ← ZString.appendc junk z [c, 0]
    commandStrLoop junk out z

/-- misc.c:108-137 `zpl_system_command_str` -/
def systemCommandStr (junk : Nat → Byte) (out : Option (List Byte)) : Except Fault (Option ZStr) :=
  match out with
  | none => .ok none
  | some out => do
    let z ← ZString.makeReserve 4
    let z ← commandStrLoop junk out z
    .ok (some z)

/-! ## Specification -/

/-- Changes of the environment. -/
inductive Change where
  | set (name value : List Byte)
  | unset (name : List Byte)

def run (env : Env) : List Change → Env
  | [] => env
  | .set n v :: l => run (setEnv env n v) l
  | .unset n :: l => run (unsetEnv env n) l

/-- A name that a variable can have. -/
def Name (n : List Byte) : Prop := n ≠ [] ∧ 0x3d#8 ∉ n

instance (n : List Byte) : Decidable (Name n) := instDecidableAnd

/-- The value of a variable after some changes: that of the last change, or else the value before. -/
def valueAfter (before : Option (List Byte)) (name : List Byte) : List Change → Option (List Byte)
  | [] => before
  | .set n v :: l => valueAfter (if n = name then some v else before) name l
  | .unset n :: l => valueAfter (if n = name then none else before) name l

/-! ## C133 -/

theorem getenv_set {env : Env} {n v : List Byte} (hn : Name n) (name : List Byte) : getenv (setEnv env n v) name = if n = name then some v else getenv env name := by
  unfold setEnv setenv
  rw [if_neg (fun h => h.elim hn.1 hn.2)]
  unfold getenv
  by_cases ha : env.any (fun p => p.1 == n) = true
  · rw [if_pos ha]
    clear hn
    induction env with
    | nil => simp at ha
    | cons p env ih =>
      rw [List.map_cons]
      by_cases hp : p.1 = n
      · rw [if_pos hp]
        by_cases hnn : n = name
        · rw [List.find?_cons_of_pos (by simpa using hnn), if_pos hnn]
          rfl
        · rw [List.find?_cons_of_neg (by simpa using hnn), if_neg hnn, List.find?_cons_of_neg (by rw [hp]; simpa using hnn)]
          by_cases ha' : env.any (fun p => p.1 == n) = true
          · rw [ih ha', if_neg hnn]
          · congr 2
            conv => rhs; rw [← List.map_id env]
            apply List.map_congr_left
            intro q hq
            have : q.1 ≠ n := by
              intro e
              exact ha' (List.any_eq_true.2 ⟨q, hq, by simpa using e⟩)
            rw [if_neg this]
            rfl
      · rw [if_neg hp]
        have ha' : env.any (fun p => p.1 == n) = true := by
          rw [List.any_cons] at ha
          simpa [hp] using ha
        by_cases hq : p.1 = name
        · rw [List.find?_cons_of_pos (by simpa using hq), List.find?_cons_of_pos (by simpa using hq), if_neg (by rintro rfl; exact hp hq)]
        · rw [List.find?_cons_of_neg (by simpa using hq), List.find?_cons_of_neg (by simpa using hq), ih ha']
  · rw [if_neg ha]
    rw [List.find?_append]
    by_cases hnn : n = name
    · subst hnn
      rw [if_pos rfl]
      have : env.find? (fun p => p.1 == n) = none := by
        rw [List.find?_eq_none]
        intro q hq e
        exact ha (List.any_eq_true.2 ⟨q, hq, e⟩)
      rw [this, Option.none_or, List.find?_cons_of_pos (by simp)]
      rfl
    · rw [if_neg hnn, List.find?_cons_of_neg (by simpa using hnn), List.find?_nil, Option.or_none]

theorem getenv_unset {env : Env} {n : List Byte} (hn : Name n) (name : List Byte) : getenv (unsetEnv env n) name = if n = name then none else getenv env name := by
  unfold unsetEnv unsetenv
  rw [if_neg (fun h => h.elim hn.1 hn.2)]
  unfold getenv
  by_cases hnn : n = name
  · subst hnn
    rw [if_pos rfl, Option.map_eq_none_iff, List.find?_eq_none]
    intro q hq
    rw [List.mem_filter] at hq
    simpa using hq.2
  · rw [if_neg hnn]
    congr 1
    induction env with
    | nil => rfl
    | cons p env ih =>
      by_cases hp : p.1 = n
      · rw [List.filter_cons_of_neg (by simpa using hp), ih, List.find?_cons_of_neg (by rw [hp]; simpa using hnn)]
      · rw [List.filter_cons_of_pos (by simpa using hp)]
        by_cases hq : p.1 = name
        · rw [List.find?_cons_of_pos (by simpa using hq), List.find?_cons_of_pos (by simpa using hq)]
        · rw [List.find?_cons_of_neg (by simpa using hq), List.find?_cons_of_neg (by simpa using hq), ih]

theorem getenv_run (name : List Byte) : ∀ {l : List Change} {env : Env}, (∀ c ∈ l, match c with | .set n _ => Name n | .unset n => Name n) →
    getenv (run env l) name = valueAfter (getenv env name) name l
  | [], _, _ => rfl
  | .set n v :: l, env, h => by
    rw [run, getenv_run name (fun c hc => h c (by simp [hc])), valueAfter, getenv_set (h (.set n v) (by simp))]
  | .unset n :: l, env, h => by
    rw [run, getenv_run name (fun c hc => h c (by simp [hc])), valueAfter, getenv_unset (h (.unset n) (by simp))]

theorem copy_ok (junk : Nat → Byte) {v : List Byte} (hv : Text v) (behind : List Byte) :
    (do let size ← strlen (v ++ 0 :: behind); let buffer ← put (fresh junk (size + 1)) 0 (v ++ 0 :: behind) (size + 1); Except.ok (some buffer)) = (Except.ok (some (v ++ [0])) : Except Fault _) := by
  have e : strlen (v ++ 0 :: behind) = .ok v.length := by
    clear junk
    induction v with
    | nil => rfl
    | cons c v ih =>
      have h1 : c ≠ 0 := hv c (by simp)
      have h2 : Text v := fun d hd => hv d (by simp [hd])
      rw [List.cons_append, strlen, if_pos h1, ih h2]
      rfl
  rw [e, except_ok_bind, put_ok (by rw [fresh_length]; omega) (by simp), except_ok_bind]
  congr 2
  rw [List.take_zero, List.nil_append, List.drop_eq_nil_of_le (by rw [fresh_length]; omega), List.append_nil, show v ++ 0 :: behind = (v ++ [0]) ++ behind by simp,
    List.take_left' (by simp)]

/-- After any changes of the environment a variable has the value of the last change; the answer is a block of its own with just this value. -/
theorem C133_get (junk : Nat → Byte) (behind : List Byte) {env : Env} {l : List Change} (hl : ∀ c ∈ l, match c with | .set n _ => Name n | .unset n => Name n) (name : List Byte) :
    (valueAfter (getenv env name) name l = none → getEnv junk behind (run env l) name = .ok none) ∧
      ∀ v, valueAfter (getenv env name) name l = some v → Text v → getEnv junk behind (run env l) name = .ok (some (v ++ [0])) := by
  unfold getEnv getEnvBuf
  rw [getenv_run name hl]
  refine ⟨fun h => by rw [h]; rfl, fun v h hv => ?_⟩
  rw [h]
  exact copy_ok junk hv behind

/-- And as a string. -/
theorem C133_get_str (junk : Nat → Byte) (behind : List Byte) {env : Env} {l : List Change} (hl : ∀ c ∈ l, match c with | .set n _ => Name n | .unset n => Name n) (name : List Byte) :
    (valueAfter (getenv env name) name l = none → getEnvStr junk behind (run env l) name = .ok none) ∧
      ∀ v, valueAfter (getenv env name) name l = some v → Text v → ∃ z, getEnvStr junk behind (run env l) name = .ok (some z) ∧ Holds z v := by
  unfold getEnvStr getEnvBuf
  rw [getenv_run name hl]
  refine ⟨fun h => by rw [h]; rfl, fun v h hv => ?_⟩
  rw [h]
  obtain ⟨z, e, hz⟩ := maker_ok junk (.text (v ++ 0 :: behind)) (show (0 : Byte) ∈ v ++ 0 :: behind by simp)
  have e' : make junk (some (v ++ 0 :: behind)) = .ok z := e
  refine ⟨z, ?_, ?_⟩
  · show (make junk (some (v ++ 0 :: behind)) >>= _) = _
    rw [e']
    rfl
  · have : textOf (v ++ 0 :: behind) = v := by
      unfold textOf
      rw [List.takeWhile_append_of_pos]
      · simp
      · intro c hc
        have : c ≠ 0 := hv c hc
        simpa using this
    rw [← this]
    exact hz

/-- Setting or removing a variable with a name that cannot be is passed over without a word. -/
theorem C133_bad_name_ignored (env : Env) {name : List Byte} (h : ¬ Name name) (value : List Byte) : setEnv env name value = env ∧ unsetEnv env name = env := by
  have h' : name = [] ∨ 0x3d#8 ∈ name := by
    by_cases h1 : name = []
    · exact .inl h1
    · by_cases h2 : 0x3d#8 ∈ name
      · exact .inr h2
      · exact absurd ⟨h1, h2⟩ h
  unfold setEnv setenv unsetEnv unsetenv
  rw [if_pos h', if_pos h']
  exact ⟨rfl, rfl⟩

/-! ### Commands -/

theorem commandLoop_ok (n : Nat) : ∀ (out : List Byte) (i : Nat) (buffer : List Byte), n ≤ buffer.length →
    commandLoop n out i buffer = .ok (buffer.take i ++ out.take (n - i) ++ buffer.drop (i + (out.take (n - i)).length))
  | [], i, buffer, _ => by simp [commandLoop]
  | c :: out, i, buffer, hb => by
    rw [commandLoop]
    split
    · next hi =>
      have hw : wr buffer i c = .ok (buffer.set i c) := if_pos (by omega)
      rw [hw, except_ok_bind, commandLoop_ok n out (i + 1) _ (by simpa using hb)]
      congr 1
      obtain ⟨k, hk⟩ : ∃ k, n - i = k + 1 := ⟨n - i - 1, by omega⟩
      rw [hk, show n - (i + 1) = k by omega, List.take_succ_cons, List.length_cons]
      have e1 : (buffer.set i c).take (i + 1) = buffer.take i ++ [c] := by
        rw [List.take_succ_eq_append_getElem (by simp; omega), List.take_set_of_le (Nat.le_refl _)]
        simp
      have e2 : (buffer.set i c).drop (i + 1 + (out.take k).length) = buffer.drop (i + ((out.take k).length + 1)) := by
        rw [List.drop_set_of_lt (by omega)]
        congr 1
        omega
      rw [e1, e2]
      simp
    · next hi =>
      rw [show n - i = 0 by omega]
      simp

/-- A command fills the buffer with the first bytes it prints, as many as the buffer has, and changes nothing behind; the answer tells whether it was started. -/
theorem C133_command (out : List Byte) {n : Nat} {buffer : List Byte} (h : n ≤ buffer.length) :
    systemCommand (some out) n buffer = .ok (out.take n ++ buffer.drop (out.take n).length, 1) ∧ systemCommand none n buffer = .ok (buffer, 0) := by
  refine ⟨?_, rfl⟩
  unfold systemCommand
  dsimp only
  rw [commandLoop_ok n out 0 buffer h]
  simp [except_ok_bind]

/-- But no NUL is put behind: what the program reads as a text goes on with the old bytes of the buffer, and beyond its end when there are none. -/
theorem C133_command_unterminated {out : List Byte} (ho : Text out) {n : Nat} {buffer : List Byte} (h : n ≤ buffer.length) (hb : Text buffer) :
    ∃ b, systemCommand (some out) n buffer = .ok (b, 1) ∧ strlen b = .error .oob := by
  refine ⟨_, (C133_command out h).1, ?_⟩
  have key : ∀ b : List Byte, Text b → strlen b = .error .oob := by
    intro b
    induction b with
    | nil => intro _; rfl
    | cons c b ih =>
      intro hb
      rw [strlen, if_pos (hb c (by simp)), ih fun d hd => hb d (by simp [hd])]
      rfl
  refine key _ fun c hm hc => ?_
  subst hc
  rcases List.mem_append.1 hm with hm | hm
  · exact ho _ (List.mem_of_mem_take hm) rfl
  · exact hb _ (List.mem_of_mem_drop hm) rfl

/-- And a text that was cut off cannot be told from one that was not. -/
theorem C133_command_cut (out more : List Byte) {buffer : List Byte} (h : out.length ≤ buffer.length) :
    systemCommand (some (out ++ more)) out.length buffer = systemCommand (some out) out.length buffer := by
  rw [(C133_command _ h).1, (C133_command _ h).1]
  simp

theorem commandStrLoop_ok (junk : Nat → Byte) : ∀ (out : List Byte) {z : ZStr} {s : List Byte}, Holds z s → ∃ z', commandStrLoop junk out z = .ok z' ∧ Holds z' (s ++ out.filter (· ≠ 0))
  | [], z, s, h => ⟨z, rfl, by simpa using h⟩
  | c :: out, z, s, h => by
    obtain ⟨z1, e1, h1⟩ := appendc_ok junk h (b := [c, 0]) (by simp)
    obtain ⟨z2, e2, h2⟩ := commandStrLoop_ok junk out h1
    refine ⟨z2, ?_, ?_⟩
    · rw [commandStrLoop, e1, except_ok_bind, e2]
    · by_cases hc : c = 0
      · subst hc
        rw [List.filter_cons_of_neg (by simp)]
        simpa [textOf] using h2
      · rw [List.filter_cons_of_pos (by simpa using hc)]
        have : textOf [c, 0] = [c] := by
          unfold textOf
          rw [List.takeWhile_cons, if_pos (by simpa using hc)]
          simp
        rw [this, List.append_assoc] at h2
        exact h2

/-- The string with what a command prints has all of it but the NUL bytes, at any length. -/
theorem C133_command_str (junk : Nat → Byte) (out : List Byte) : ∃ z, systemCommandStr junk (some out) = .ok (some z) ∧ Holds z (out.filter (· ≠ 0)) := by
  obtain ⟨z, e, h⟩ := maker_ok junk (.reserve 4) trivial
  have e' : makeReserve 4 = .ok z := e
  obtain ⟨z', e2, h2⟩ := commandStrLoop_ok junk out h
  refine ⟨z', ?_, by simpa [Maker.bytes] using h2⟩
  unfold systemCommandStr
  dsimp only
  rw [e', except_ok_bind, e2]
  rfl

/-- So it is what the command prints exactly when that has no NUL bytes. -/
theorem C133_command_str_exact (junk : Nat → Byte) (out : List Byte) : (∃ z, systemCommandStr junk (some out) = .ok (some z) ∧ Holds z out) ↔ Text out := by
  obtain ⟨z, e, h⟩ := C133_command_str junk out
  constructor
  · rintro ⟨z', e', h'⟩ c hm rfl
    rw [e] at e'
    injection e' with e'
    injection e' with e'
    subst e'
    have hl := h.length.symm.trans h'.length
    have : out.filter (· ≠ 0) = out := List.filter_sublist.eq_of_length hl
    rw [List.filter_eq_self] at this
    simpa using this 0 hm
  · intro ht
    refine ⟨z, e, ?_⟩
    have : out.filter (· ≠ 0) = out := by
      rw [List.filter_eq_self]
      intro c hc
      have : c ≠ 0 := ht c hc
      simpa using this
    rw [← this]
    exact h

/-! ### Examples -/

example : getEnv (fun _ => 9) [5] (run [([0x41], [0x31])] [.set [0x42] [0x32], .set [0x41] [0x33], .unset [0x42]]) [0x41] = .ok (some [0x33, 0]) := by decide +kernel

example : getEnv (fun _ => 9) [5] (run [([0x41], [0x31])] [.set [0x42] [0x32], .unset [0x41]]) [0x41] = .ok none := by decide +kernel

example : Name [0x41] ∧ ¬ Name [0x41, 0x3d] := by decide

example : systemCommand (some [1, 2, 3]) 2 [7, 7, 7] = .ok ([1, 2, 7], 1) := by decide +kernel

end Zpl.Command
