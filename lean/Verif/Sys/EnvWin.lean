import Verif.Str.Ucs2

/-!
# Environment variables on Windows (code/source/core/misc.c:28-74) and the converters with their own buffer (string.c:306-314)  -  C161

The Windows branches.  The environment is kept by Windows as names and values of 16-bit units; names are compared without regard to case.
`SetEnvironmentVariableA` takes bytes of the system's code page, `GetEnvironmentVariableW` units.  Code pages with two-byte characters are not modelled. -/

namespace Zpl.EnvWin

open Str Utf8 Ucs2

/-- What differs between Windows systems: the character each byte of the code page stands for, and the upper case of a unit. -/
structure Windows where
  page : Byte → Nat
  upper : Unit16 → Unit16
  ascii : ∀ b : Byte, b.toNat < 0x80 → page b = b.toNat
  high : ∀ b : Byte, 0x80 ≤ b.toNat → 0x80 ≤ page b ∧ page b < 0x10000 ∧ Scalar (page b)

abbrev Env := List (List Unit16 × List Unit16)

/-- Names are the same up to case. -/
def Windows.same (w : Windows) (a b : List Unit16) : Bool := a.map w.upper == b.map w.upper

/-- The variable with a name. -/
def Windows.find (w : Windows) (env : Env) (name : List Unit16) : Option (List Unit16) := (env.find? fun p => w.same p.1 name).map Prod.snd

/-- Bytes of the code page as units. -/
def Windows.wide (w : Windows) (s : List Byte) : List Unit16 := s.map fun b => BitVec.ofNat 16 (w.page b)

/-- `SetEnvironmentVariableA(name, value)`: a name that is empty or has an `=` in it is refused. -/
def Windows.setA (w : Windows) (env : Env) (name value : List Byte) : Env :=
  if name = [] ∨ 0x3d#8 ∈ name then env
  else if env.any (fun p => w.same p.1 (w.wide name)) then
    env.map fun p => if w.same p.1 (w.wide name) then (p.1, w.wide value) else p
  else env ++ [(w.wide name, w.wide value)]

/-- `SetEnvironmentVariableA(name, NULL)` -/
def Windows.unsetA (w : Windows) (env : Env) (name : List Byte) : Env :=
  if name = [] ∨ 0x3d#8 ∈ name then env else env.filter fun p => ¬ w.same p.1 (w.wide name)

/-- The static buffers: string.c:307 (`name`), misc.c:30 (`wide`) and 31 (`narrow`).  Another, string.c:312, is that of `zpl_ucs2_to_utf8_buf`. -/
structure Statics where
  name : List Unit16
  wide : List Unit16
  narrow : List Byte

/-- string.c:306-309 `zpl_utf8_to_ucs2_buf`: the buffer after the call, and whether it is returned. -/
def toUcs2Buf (buf : List Unit16) (str : List Byte) : Except Fault (List Unit16 × Bool) := utf8ToUcs2 buf 4096 str

/-- string.c:311-314 `zpl_ucs2_to_utf8_buf` -/
def toUtf8Buf (buf : List Byte) (str : List Unit16) : Except Fault (List Byte × Bool) := ucs2ToUtf8 buf 4096 str

/-- `GetEnvironmentVariableW(name, buffer, size)`: the buffer and the number returned.  Without a name, or for one that does not exist, 0 is returned.
A value that fits is stored with its terminator and its length is returned; for another the size it needs. -/
def Windows.getW (w : Windows) (env : Env) (name : Option (List Unit16)) (buffer : List Unit16) (size : Nat) : List Unit16 × Nat :=
  match name.bind (w.find env) with
  | none => (buffer, 0)
  | some v => if v.length + 1 ≤ size then (v ++ 0 :: buffer.drop (v.length + 1), v.length) else (buffer, v.length + 1)

/-- misc.c:33-41: from the call of `GetEnvironmentVariableW` on, with the converted name. -/
def Windows.getNamed (w : Windows) (env : Env) (st : Statics) (name : Option (List Unit16)) : Except Fault (Statics × Bool) :=
  let r := w.getW env name st.wide 32767
  if r.2 = 0 then .ok (⟨st.name, r.1, st.narrow⟩, false)
  else do
    let (narrow, _) ← ucs2ToUtf8 st.narrow 32767 r.1
    .ok (⟨st.name, r.1, narrow⟩, true)

/-- misc.c:28-45 `zpl_get_env_buf`: `true` when the static buffer is returned, `false` for `NULL`. -/
def Windows.getEnvBuf (w : Windows) (env : Env) (st : Statics) (name : List Byte) : Except Fault (Statics × Bool) := do
  let (nm, ok) ← toUcs2Buf st.name name
  w.getNamed env { st with name := nm } (if ok then some (nm.takeWhile (· ≠ 0)) else none)

/-- misc.c:58-64 `zpl_set_env` -/
def Windows.setEnv (w : Windows) (env : Env) (name value : List Byte) : Env := w.setA env name value

/-- misc.c:66-72 `zpl_unset_env` -/
def Windows.unsetEnv (w : Windows) (env : Env) (name : List Byte) : Env := w.unsetA env name

/-! ## Specification -/

/-- The block is the text `s` with its terminator, and anything behind. -/
def Holds {α : Type} [OfNat α 0] (s block : List α) : Prop := ∃ rest, block = s ++ 0 :: rest

/-- The buffers have the sizes with which they are declared; what earlier calls left in them is arbitrary. -/
def Statics.Sized (st : Statics) : Prop := st.name.length = 4096 ∧ st.wide.length = 32767 ∧ st.narrow.length = 32767

/-- Plain ASCII without NUL. -/
def Ascii (s : List Byte) : Prop := ∀ c ∈ s, c.toNat < 0x80 ∧ c ≠ 0

/-! ## Lemmas -/

theorem holds_unique {α : Type} [OfNat α 0] {s t block : List α} (hs : ∀ c ∈ s, c ≠ 0) (ht : ∀ c ∈ t, c ≠ 0) (h1 : Holds s block) (h2 : Holds t block) : s = t := by
  obtain ⟨r1, rfl⟩ := h1
  obtain ⟨r2, e⟩ := h2
  induction s generalizing t with
  | nil =>
    cases t with
    | nil => rfl
    | cons a t => simp only [List.nil_append, List.cons_append, List.cons.injEq] at e; exact absurd e.1.symm (ht a (by simp))
  | cons a s ih =>
    cases t with
    | nil => simp only [List.nil_append, List.cons_append, List.cons.injEq] at e; exact absurd e.1 (hs a (by simp))
    | cons b t =>
      simp only [List.cons_append, List.cons.injEq] at e
      rw [e.1, ih (fun c hc => hs c (by simp [hc])) (fun c hc => ht c (by simp [hc])) e.2]

theorem utf16_ne_zero {r : Nat} (h : Scalar r) (h0 : r ≠ 0) : ∀ u ∈ utf16 r, u ≠ 0 := by
  intro u hu e
  obtain ⟨h1, h2⟩ := h
  unfold utf16 at hu
  split at hu
  · simp only [List.mem_singleton] at hu
    have := congrArg BitVec.toNat (hu.symm.trans e)
    simp only [BitVec.toNat_ofNat, BitVec.ofNat_eq_ofNat] at this
    omega
  · simp only [List.mem_cons, List.not_mem_nil, or_false] at hu
    rcases hu with hu | hu <;> have := congrArg BitVec.toNat (hu.symm.trans e) <;> simp only [BitVec.toNat_ofNat, BitVec.ofNat_eq_ofNat] at this <;> omega

theorem flatMap_utf16_ne_zero {rs : List Nat} (h : Runes rs) : ∀ u ∈ rs.flatMap utf16, u ≠ 0 := by
  intro u hu
  obtain ⟨r, hr, hu⟩ := List.mem_flatMap.1 hu
  exact utf16_ne_zero (h r hr).1 (h r hr).2 u hu

theorem takeWhile_holds {s rest : List Unit16} (h : ∀ c ∈ s, c ≠ 0) : (s ++ 0 :: rest).takeWhile (· ≠ 0) = s := by
  induction s with
  | nil => simp
  | cons a s ih =>
    rw [List.cons_append, List.takeWhile_cons_of_pos (by simpa using h a (by simp)), ih fun c hc => h c (by simp [hc])]

theorem enc_utf16_length {r : Nat} : (utf16 r).length ≤ (enc r).length := by
  unfold utf16 enc
  repeat' split
  all_goals simp
  all_goals omega

theorem runes_enc_utf16_length (rs : List Nat) : (rs.flatMap utf16).length ≤ (rs.flatMap enc).length := by
  induction rs with
  | nil => simp
  | cons r rs ih => have := @enc_utf16_length r; simp only [List.flatMap_cons, List.length_append]; omega

theorem flatMap_enc_inj {rs rs' : List Nat} (hrs : Runes rs) (h' : Runes rs') (e : rs.flatMap enc = rs'.flatMap enc) : rs' = rs := by
  induction rs generalizing rs' with
  | nil =>
    cases rs' with
    | nil => rfl
    | cons r t =>
      have h := congrArg List.length e
      rw [List.flatMap_cons, List.length_append] at h
      have := enc_length_pos (h' r (by simp)).1
      simp only [List.flatMap_nil, List.length_nil] at h
      omega
  | cons r t ih =>
    cases rs' with
    | nil =>
      have h := congrArg List.length e
      rw [List.flatMap_cons, List.length_append] at h
      have := enc_length_pos (hrs r (by simp)).1
      simp only [List.flatMap_nil, List.length_nil] at h
      omega
    | cons r' t' =>
      have hr := (hrs r (by simp)).1
      have hr' := (h' r' (by simp)).1
      rw [List.flatMap_cons, List.flatMap_cons] at e
      have hpe : enc r = enc r' := shape_prefix (enc_shape hr) (enc_shape hr') _ (List.prefix_append _ (t.flatMap enc)) (by rw [e]; exact List.prefix_append _ _)
      have hrr : r = r' := by
        have k1 := enc_shape hr
        have k2 := enc_shape hr'
        rw [hpe] at k1
        generalize enc r' = p at k1 k2
        cases k1 <;> cases k2 <;> rfl
      subst hrr
      rw [ih (fun x hx => hrs x (by simp [hx])) (fun x hx => h' x (by simp [hx])) (List.append_cancel_left e)]

theorem flatMap_utf16_inj {a b : List Nat} (ha : Runes a) (hb : Runes b) (e : a.flatMap utf16 = b.flatMap utf16) : a = b := by
  obtain ⟨x, ok, e1, -, -, e4, e5⟩ := C28_ucs2_to_utf8 ha [] (List.replicate ((a.flatMap enc).length + (b.flatMap enc).length + 1) 0)
    ((a.flatMap enc).length + (b.flatMap enc).length + 1) (by omega) (by simp)
  obtain ⟨y, ok', f1, -, -, f4, f5⟩ := C28_ucs2_to_utf8 hb [] (List.replicate ((a.flatMap enc).length + (b.flatMap enc).length + 1) 0)
    ((a.flatMap enc).length + (b.flatMap enc).length + 1) (by omega) (by simp)
  have h1 := e5 (e4.2 (by omega))
  have h2 := f5 (f4.2 (by omega))
  rw [e, f1] at e1
  cases e1
  exact (flatMap_enc_inj ha hb (holds_unique (flatMap_enc_text ha) (flatMap_enc_text hb) ⟨_, h1⟩ ⟨_, h2⟩)).symm

theorem toUcs2Buf_ok {ns : List Nat} (hns : Runes ns) (rest : List Byte) (buf : List Unit16) (hb : buf.length = 4096) (hl : (ns.flatMap utf16).length < 4096) :
    toUcs2Buf buf (ns.flatMap enc ++ 0 :: rest) = .ok (ns.flatMap utf16 ++ 0 :: buf.drop ((ns.flatMap utf16).length + 1), true) := by
  obtain ⟨nm, ok, e1, -, -, e4, e5⟩ := C28_utf8_to_ucs2 (flatMap_enc_text hns) rest buf 4096 (by omega) (by omega)
  have hok := e4.2 ⟨ns, hns, rfl, by omega⟩
  subst hok
  obtain ⟨rs, h1, h2, h3⟩ := e5 rfl
  rw [toUcs2Buf, e1, h3, flatMap_enc_inj hns h1 h2]

/-- A call with a well-formed name. -/
theorem getEnvBuf_eq (w : Windows) (env : Env) {st : Statics} (hst : st.Sized) {ns : List Nat} (hns : Runes ns) (hl : (ns.flatMap utf16).length < 4096)
    (rest : List Byte) : ∃ nm, nm.length = 4096 ∧ w.getEnvBuf env st (ns.flatMap enc ++ 0 :: rest) =
      w.getNamed env ⟨nm, st.wide, st.narrow⟩ (some (ns.flatMap utf16)) := by
  refine ⟨ns.flatMap utf16 ++ 0 :: st.name.drop ((ns.flatMap utf16).length + 1), ?_, ?_⟩
  · have := hst.1
    rw [List.length_append, List.length_cons, List.length_drop]; omega
  · unfold Windows.getEnvBuf
    rw [toUcs2Buf_ok hns rest _ hst.1 hl]
    show w.getNamed env _ (if true = true then some _ else none) = _
    rw [if_pos rfl, takeWhile_holds (flatMap_utf16_ne_zero hns)]

theorem getW_found (w : Windows) (env : Env) {name v : List Unit16} (h : w.find env name = some v) (buffer : List Unit16) (size : Nat) :
    w.getW env (some name) buffer size = if v.length + 1 ≤ size then (v ++ 0 :: buffer.drop (v.length + 1), v.length) else (buffer, v.length + 1) := by
  unfold Windows.getW
  rw [Option.bind_some, h]

theorem getW_missing (w : Windows) (env : Env) {name : List Unit16} (h : w.find env name = none) (buffer : List Unit16) (size : Nat) :
    w.getW env (some name) buffer size = (buffer, 0) := by
  unfold Windows.getW
  rw [Option.bind_some, h]

theorem find_append (w : Windows) (env : Env) (n v m : List Unit16) :
    w.find (env ++ [(n, v)]) m = match w.find env m with
      | some x => some x
      | none => if w.same n m then some v else none := by
  unfold Windows.find
  rw [List.find?_append]
  cases env.find? (fun p => w.same p.1 m) with
  | some x => rfl
  | none =>
    cases h : w.same n m <;> simp [h]

theorem same_symm (w : Windows) {a b : List Unit16} (h : w.same a b = true) : w.same b a = true := by
  unfold Windows.same at *; simp only [beq_iff_eq] at *; exact h.symm

theorem same_trans (w : Windows) {a b c : List Unit16} (h : w.same a b = true) (g : w.same b c = true) : w.same a c = true := by
  unfold Windows.same at *; simp only [beq_iff_eq] at *; exact h.trans g

theorem find_map (w : Windows) (env : Env) (n v m : List Unit16) :
    w.find (env.map fun p => if w.same p.1 n then (p.1, v) else p) m =
      if w.same n m then (w.find env m).map fun _ => v else w.find env m := by
  unfold Windows.find
  induction env with
  | nil => simp
  | cons p env ih =>
    by_cases h : w.same p.1 m = true
    · by_cases g : w.same p.1 n = true
      · have : w.same n m = true := same_trans w (same_symm w g) h
        simp [h, g, this]
      · have : ¬ w.same n m = true := fun k => g (same_trans w h (same_symm w k))
        simp [h, g, this]
    · have h' : w.same (if w.same p.1 n = true then (p.1, v) else p).1 m ≠ true := by
        split <;> exact h
      rw [List.map_cons, List.find?_cons_of_neg (p := fun q : List Unit16 × List Unit16 => w.same q.1 m) h', List.find?_cons_of_neg (p := fun q : List Unit16 × List Unit16 => w.same q.1 m) h]
      exact ih

theorem find_set (w : Windows) (env : Env) {name : List Byte} (h : name ≠ [] ∧ 0x3d#8 ∉ name) (value : List Byte) (m : List Unit16) :
    w.find (w.setA env name value) m = if w.same (w.wide name) m then some (w.wide value) else w.find env m := by
  unfold Windows.setA
  rw [if_neg (fun g => g.elim h.1 h.2)]
  split
  · next hany =>
    rw [find_map]
    split
    · next hs =>
      obtain ⟨p, hp, hpn⟩ := List.any_eq_true.1 hany
      have : ∃ x, w.find env m = some x := by
        unfold Windows.find
        cases hf : env.find? (fun p => w.same p.1 m) with
        | some x => exact ⟨_, rfl⟩
        | none => exact absurd (same_trans w hpn hs) (List.find?_eq_none.1 hf p hp)
      obtain ⟨x, hx⟩ := this
      rw [hx]; rfl
    · rfl
  · next hany =>
    rw [find_append]
    cases hf : w.find env m with
    | none => rfl
    | some x =>
      have : ¬ w.same (w.wide name) m = true := by
        intro hs
        unfold Windows.find at hf
        cases hg : env.find? (fun p => w.same p.1 m) with
        | none => rw [hg] at hf; cases hf
        | some q =>
          have h1 := List.find?_some hg
          have h2 := List.mem_of_find?_eq_some hg
          exact hany (List.any_eq_true.2 ⟨q, h2, same_trans w h1 (same_symm w hs)⟩)
      simp [this]

theorem find_unset (w : Windows) (env : Env) {name : List Byte} (h : name ≠ [] ∧ 0x3d#8 ∉ name) (m : List Unit16) :
    w.find (w.unsetA env name) m = if w.same (w.wide name) m then none else w.find env m := by
  unfold Windows.unsetA
  rw [if_neg (fun g => g.elim h.1 h.2)]
  unfold Windows.find
  induction env with
  | nil => simp
  | cons p env ih =>
    by_cases g : w.same p.1 (w.wide name) = true
    · rw [List.filter_cons_of_neg (by simp [g]), ih]
      by_cases k : w.same (w.wide name) m = true
      · simp [k]
      · have : ¬ w.same p.1 m = true := fun x => k (same_trans w (same_symm w g) x)
        simp [k, this]
    · rw [List.filter_cons_of_pos (by simp [g])]
      by_cases k : w.same p.1 m = true
      · have : ¬ w.same (w.wide name) m = true := fun x => g (same_trans w k (same_symm w x))
        simp [k, this]
      · rw [List.find?_cons_of_neg (p := fun q : List Unit16 × List Unit16 => w.same q.1 m) k, List.find?_cons_of_neg (p := fun q : List Unit16 × List Unit16 => w.same q.1 m) k, ih]

/-- The characters a text of the code page stands for. -/
theorem wide_eq (w : Windows) {s : List Byte} (hs : Text s) : Runes (s.map w.page) ∧ w.wide s = (s.map w.page).flatMap utf16 := by
  have key : ∀ b : Byte, b ≠ 0 → Scalar (w.page b) ∧ w.page b ≠ 0 ∧ w.page b < 0x10000 := by
    intro b hb
    by_cases h : b.toNat < 0x80
    · rw [w.ascii b h]
      have : b.toNat ≠ 0 := fun e => hb (BitVec.eq_of_toNat_eq e)
      exact ⟨⟨by omega, by omega⟩, this, by omega⟩
    · obtain ⟨h1, h2, h3⟩ := w.high b (by omega)
      exact ⟨h3, by omega, h2⟩
  constructor
  · intro r hr
    obtain ⟨b, hb, rfl⟩ := List.mem_map.1 hr
    exact ⟨(key b (hs b hb)).1, (key b (hs b hb)).2.1⟩
  · unfold Windows.wide
    induction s with
    | nil => rfl
    | cons b s ih =>
      rw [List.map_cons, List.map_cons, List.flatMap_cons, ih fun c hc => hs c (by simp [hc]), utf16_small (key b (hs b (by simp))).2.2]
      rfl

theorem ascii_text {s : List Byte} (h : Ascii s) : Text s := fun c hc => (h c hc).2

theorem ascii_enc (w : Windows) {s : List Byte} (h : Ascii s) : (s.map w.page).flatMap enc = s := by
  induction s with
  | nil => rfl
  | cons b s ih =>
    have hb := (h b (by simp)).1
    rw [List.map_cons, List.flatMap_cons, ih fun c hc => h c (by simp [hc]), w.ascii b hb]
    unfold enc
    rw [if_pos hb]
    simp

theorem ascii_ascii (w : Windows) {s : List Byte} (h : Ascii s) : w.wide s = (s.map w.page).flatMap utf16 := (wide_eq w (ascii_text h)).2

/-- Reading a variable whose value is `rs`. -/
theorem get_found (w : Windows) (env : Env) {st : Statics} (hst : st.Sized) {ns rs : List Nat} (hns : Runes ns) (hl : (ns.flatMap utf16).length < 4096)
    (rest : List Byte) (hrs : Runes rs) (hne : rs ≠ []) (hlen : (rs.flatMap utf16).length < 32767)
    (hf : w.find env (ns.flatMap utf16) = some (rs.flatMap utf16)) :
    ∃ st', w.getEnvBuf env st (ns.flatMap enc ++ 0 :: rest) = .ok (st', true) ∧ st'.Sized ∧
      (Holds (rs.flatMap enc) st'.narrow ↔ (rs.flatMap enc).length < 32767) := by
  obtain ⟨nm, hnm, e⟩ := getEnvBuf_eq w env hst hns hl rest
  have hw := hst.2.1
  have hpos : 1 ≤ (rs.flatMap utf16).length := by
    have := runes_length rs
    have : 1 ≤ rs.length := by cases rs with
      | nil => exact absurd rfl hne
      | cons => simp
    omega
  have hg := getW_found w env hf st.wide 32767
  rw [if_pos (by omega)] at hg
  obtain ⟨nw, ok, f1, f2, -, f4, f5⟩ := C28_ucs2_to_utf8 hrs (st.wide.drop ((rs.flatMap utf16).length + 1)) st.narrow 32767 (by omega) (by have := hst.2.2; omega)
  refine ⟨⟨nm, rs.flatMap utf16 ++ 0 :: st.wide.drop ((rs.flatMap utf16).length + 1), nw⟩, ?_, ⟨hnm, ?_, ?_⟩, ?_, ?_⟩
  · rw [e]
    unfold Windows.getNamed
    simp only [hg]
    rw [if_neg (by omega), f1]
    rfl
  · show (_ ++ _ :: _ : List Unit16).length = _
    rw [List.length_append, List.length_cons, List.length_drop]; omega
  · exact f2.trans hst.2.2
  · rintro ⟨r, hr⟩
    have := congrArg List.length hr
    have h3 := hst.2.2
    simp only [List.length_append, List.length_cons] at this
    omega
  · intro h
    exact ⟨_, f5 (f4.2 (by omega))⟩

/-! ## Theorems -/

/-- **C161, the converters with their own buffer.**  Whatever earlier calls left in the buffer, `zpl_utf8_to_ucs2_buf` returns the UTF-16 form of every well-formed
text that has at most 4095 units, and `NULL` for every other text. -/
theorem C161_to_ucs2 (buf : List Unit16) (hb : buf.length = 4096) {s : List Byte} (hs : Text s) (rest : List Byte) :
    ∃ buf' ok, toUcs2Buf buf (s ++ 0 :: rest) = .ok (buf', ok) ∧ buf'.length = 4096 ∧
      (ok = true ↔ ∃ rs, Runes rs ∧ s = rs.flatMap enc ∧ (rs.flatMap utf16).length ≤ 4095) ∧
      (∀ rs, Runes rs → s = rs.flatMap enc → ok = true → Holds (rs.flatMap utf16) buf') := by
  obtain ⟨b, ok, e1, e2, -, e4, e5⟩ := C28_utf8_to_ucs2 hs rest buf 4096 (by omega) (by omega)
  refine ⟨b, ok, e1, e2.trans hb, ⟨fun h => ?_, ?_⟩, fun rs h1 h2 h3 => ?_⟩
  · obtain ⟨rs, h1, h2, h3⟩ := e4.1 h
    exact ⟨rs, h1, h2, by omega⟩
  · rintro ⟨rs, h1, h2, h3⟩
    exact e4.2 ⟨rs, h1, h2, by omega⟩
  · obtain ⟨rs', g1, g2, g3⟩ := e5 h3
    rw [← flatMap_enc_inj h1 g1 (h2.symm.trans g2)]
    exact ⟨_, g3⟩

/-- The same for `zpl_ucs2_to_utf8_buf`. -/
theorem C161_to_utf8 (buf : List Byte) (hb : buf.length = 4096) {rs : List Nat} (hrs : Runes rs) (rest : List Unit16) :
    ∃ buf' ok, toUtf8Buf buf (rs.flatMap utf16 ++ 0 :: rest) = .ok (buf', ok) ∧ buf'.length = 4096 ∧
      (ok = true ↔ (rs.flatMap enc).length ≤ 4095) ∧ (ok = true → Holds (rs.flatMap enc) buf') := by
  obtain ⟨b, ok, e1, e2, -, e4, e5⟩ := C28_ucs2_to_utf8 hrs rest buf 4096 (by omega) (by omega)
  refine ⟨b, ok, e1, e2.trans hb, ?_, fun h => ⟨_, e5 h⟩⟩
  rw [e4]; omega

/-- **C161, refuted: the result of an earlier call.**  The pointer returned first points at the text of the later call. -/
theorem C161_overwritten (buf : List Unit16) (hb : buf.length = 4096) {a b : List Nat} (ha : Runes a) (hbr : Runes b) (hab : a ≠ b)
    (h1 : (a.flatMap utf16).length ≤ 4095) (h2 : (b.flatMap utf16).length ≤ 4095) (r1 r2 : List Byte) :
    ∃ buf1 buf2, toUcs2Buf buf (a.flatMap enc ++ 0 :: r1) = .ok (buf1, true) ∧ Holds (a.flatMap utf16) buf1 ∧
      toUcs2Buf buf1 (b.flatMap enc ++ 0 :: r2) = .ok (buf2, true) ∧ Holds (b.flatMap utf16) buf2 ∧ ¬ Holds (a.flatMap utf16) buf2 := by
  have e1 := toUcs2Buf_ok ha r1 buf hb (by omega)
  refine ⟨_, _, e1, ⟨_, rfl⟩, toUcs2Buf_ok hbr r2 _ ?_ (by omega), ⟨_, rfl⟩, fun h => hab (flatMap_utf16_inj ha hbr
    (holds_unique (flatMap_utf16_ne_zero ha) (flatMap_utf16_ne_zero hbr) h ⟨_, rfl⟩))⟩
  rw [List.length_append, List.length_cons, List.length_drop]; omega

/-- **C161, reading.**  Whatever stands in the buffers: a variable that exists and is not empty is returned as UTF-8, if that needs at most 32766 bytes. -/
theorem C161_get_partial (w : Windows) (env : Env) {st : Statics} (hst : st.Sized) {ns rs : List Nat} (hns : Runes ns) (hl : (ns.flatMap utf16).length ≤ 4095)
    (rest : List Byte) (hrs : Runes rs) (hne : rs ≠ []) (hlen : (rs.flatMap enc).length ≤ 32766)
    (hf : w.find env (ns.flatMap utf16) = some (rs.flatMap utf16)) :
    ∃ st', w.getEnvBuf env st (ns.flatMap enc ++ 0 :: rest) = .ok (st', true) ∧ st'.Sized ∧ Holds (rs.flatMap enc) st'.narrow := by
  have := runes_enc_utf16_length rs
  obtain ⟨st', e1, e2, e3⟩ := get_found w env hst hns (by omega) rest hrs hne (by omega) hf
  exact ⟨st', e1, e2, e3.2 (by omega)⟩

/-- **C161, a variable that does not exist.**  `NULL` is returned; so it is for a name that is not well-formed UTF-8. -/
theorem C161_missing (w : Windows) (env : Env) {st : Statics} (hst : st.Sized) {name : List Byte} (hn : Text name) (rest : List Byte)
    (h : ∀ ns, Runes ns → name = ns.flatMap enc → w.find env (ns.flatMap utf16) = none) :
    ∃ st', w.getEnvBuf env st (name ++ 0 :: rest) = .ok (st', false) ∧ st'.Sized := by
  obtain ⟨nm, ok, e1, e2, -, e4, e5⟩ := C28_utf8_to_ucs2 hn rest st.name 4096 (by omega) (by have := hst.1; omega)
  refine ⟨⟨nm, st.wide, st.narrow⟩, ?_, e2.trans hst.1, hst.2.1, hst.2.2⟩
  unfold Windows.getEnvBuf
  rw [toUcs2Buf, e1]
  cases ok with
  | false => rfl
  | true =>
    obtain ⟨rs, h1, h2, h3⟩ := e5 rfl
    show w.getNamed env _ (if true = true then some _ else none) = _
    rw [if_pos rfl, h3, takeWhile_holds (flatMap_utf16_ne_zero h1)]
    unfold Windows.getNamed
    simp only [getW_missing w env (h rs h1 h2)]
    rfl

/-- **C161, refuted: long values.**  A value whose UTF-8 form needs more than 32766 bytes is returned as something else: the converter fails, and its result is not looked at. -/
theorem C161_get_long (w : Windows) (env : Env) {st : Statics} (hst : st.Sized) {ns rs : List Nat} (hns : Runes ns) (hl : (ns.flatMap utf16).length ≤ 4095)
    (rest : List Byte) (hrs : Runes rs) (h16 : (rs.flatMap utf16).length ≤ 32766) (hlen : 32766 < (rs.flatMap enc).length)
    (hf : w.find env (ns.flatMap utf16) = some (rs.flatMap utf16)) :
    ∃ st', w.getEnvBuf env st (ns.flatMap enc ++ 0 :: rest) = .ok (st', true) ∧ ¬ Holds (rs.flatMap enc) st'.narrow := by
  have hne : rs ≠ [] := by rintro rfl; simp at hlen
  obtain ⟨st', e1, -, e3⟩ := get_found w env hst hns (by omega) rest hrs hne (by omega) hf
  exact ⟨st', e1, fun h => absurd (e3.1 h) (by omega)⟩

/-- **C161, refuted: empty values.**  A variable that exists with an empty value is reported as missing. -/
theorem C161_empty (w : Windows) (env : Env) {st : Statics} (hst : st.Sized) {ns : List Nat} (hns : Runes ns) (hl : (ns.flatMap utf16).length ≤ 4095)
    (rest : List Byte) (hf : w.find env (ns.flatMap utf16) = some []) :
    ∃ st', w.getEnvBuf env st (ns.flatMap enc ++ 0 :: rest) = .ok (st', false) := by
  obtain ⟨nm, hnm, e⟩ := getEnvBuf_eq w env hst hns (by omega) rest
  refine ⟨⟨nm, 0 :: st.wide.drop 1, st.narrow⟩, ?_⟩
  rw [e]
  unfold Windows.getNamed
  simp only [getW_found w env hf]
  rfl

/-- **C161, `zpl_set_env` and `zpl_get_env_buf`.**  With a name and a value of plain ASCII, what was set is returned; every variable with another name is found as before. -/
theorem C161_set_get_partial (w : Windows) (env : Env) {st : Statics} (hst : st.Sized) {name value : List Byte} (hn : Ascii name) (hn0 : name ≠ [] ∧ 0x3d#8 ∉ name)
    (hl : name.length ≤ 4095) (hv : Ascii value) (hv0 : value ≠ []) (hvl : value.length ≤ 32766) (rest : List Byte) :
    (∃ st', w.getEnvBuf (w.setEnv env name value) st (name ++ 0 :: rest) = .ok (st', true) ∧ Holds value st'.narrow) ∧
    ∀ other, w.same (w.wide name) other = false → w.find (w.setEnv env name value) other = w.find env other := by
  constructor
  · obtain ⟨n1, n2⟩ := wide_eq w (ascii_text hn)
    obtain ⟨v1, v2⟩ := wide_eq w (ascii_text hv)
    have hf : w.find (w.setEnv env name value) ((name.map w.page).flatMap utf16) = some ((value.map w.page).flatMap utf16) := by
      unfold Windows.setEnv
      rw [find_set w env hn0, ← n2, ← v2, if_pos (by simp [Windows.same])]
    have := C161_get_partial w (w.setEnv env name value) hst n1 (by rw [← n2]; simpa [Windows.wide] using hl) rest v1
      (by simpa using hv0) (by rw [ascii_enc w hv]; exact hvl) hf
    rw [ascii_enc w hn, ascii_enc w hv] at this
    obtain ⟨st', e1, -, e3⟩ := this
    exact ⟨st', e1, e3⟩
  · intro other ho
    unfold Windows.setEnv
    rw [find_set w env hn0, if_neg (by simp [ho])]

/-- **C161, `zpl_unset_env`.** -/
theorem C161_unset (w : Windows) (env : Env) {st : Statics} (hst : st.Sized) {name : List Byte} (hn : Ascii name) (hn0 : name ≠ [] ∧ 0x3d#8 ∉ name)
    (rest : List Byte) :
    (∃ st', w.getEnvBuf (w.unsetEnv env name) st (name ++ 0 :: rest) = .ok (st', false)) ∧
    ∀ other, w.same (w.wide name) other = false → w.find (w.unsetEnv env name) other = w.find env other := by
  constructor
  · obtain ⟨n1, n2⟩ := wide_eq w (ascii_text hn)
    obtain ⟨st', e, -⟩ := C161_missing w (w.unsetEnv env name) hst (ascii_text hn) rest (by
      intro ns h1 h2
      have : ns = name.map w.page := flatMap_enc_inj n1 h1 ((ascii_enc w hn).trans h2)
      rw [this, ← n2]
      unfold Windows.unsetEnv
      rw [find_unset w env hn0, if_pos (by simp [Windows.same])])
    exact ⟨st', e⟩
  · intro other ho
    unfold Windows.unsetEnv
    rw [find_unset w env hn0, if_neg (by simp [ho])]

theorem enc_two_bytes {r : Nat} (h : 0x80 ≤ r) : 2 ≤ (enc r).length := by
  unfold enc
  rw [if_neg (by omega)]
  repeat' split
  all_goals simp

theorem enc_three_bytes {r : Nat} (h : r < 0x10000) : (enc r).length ≤ 3 := by
  unfold enc
  repeat' split
  all_goals simp
  all_goals omega

theorem grow (w : Windows) (s : List Byte) (hs : Text s) : s.length ≤ ((s.map w.page).flatMap enc).length ∧ ((s.map w.page).flatMap enc).length ≤ 3 * s.length ∧
    ((∃ c ∈ s, 0x80 ≤ c.toNat) → s.length < ((s.map w.page).flatMap enc).length) := by
  induction s with
  | nil => simp
  | cons b s ih =>
    obtain ⟨i1, i2, i3⟩ := ih fun c hc => hs c (by simp [hc])
    simp only [List.map_cons, List.flatMap_cons, List.length_append, List.length_cons]
    by_cases hb : b.toNat < 0x80
    · have he : (enc (w.page b)).length = 1 := by
        rw [w.ascii b hb]; unfold enc; rw [if_pos hb]; rfl
      refine ⟨by omega, by omega, ?_⟩
      rintro ⟨c, hc, hc8⟩
      rcases List.mem_cons.1 hc with rfl | hc
      · omega
      · have := i3 ⟨c, hc, hc8⟩
        omega
    · obtain ⟨h1, h2, -⟩ := w.high b (by omega)
      have := enc_two_bytes h1
      have := enc_three_bytes h2
      exact ⟨by omega, by omega, fun _ => by omega⟩

/-- **C161, refuted: values that are not plain ASCII.**  `zpl_set_env` hands the bytes over as text of the code page, `zpl_get_env_buf` returns UTF-8: on no system with a
code page of one-byte characters does a value with a byte from 0x80 on come back as it was set. -/
theorem C161_set_get_differs (w : Windows) (env : Env) {st : Statics} (hst : st.Sized) {name value : List Byte} (hn : Ascii name) (hn0 : name ≠ [] ∧ 0x3d#8 ∉ name)
    (hl : name.length ≤ 4095) (hv : Text value) (hv8 : ∃ c ∈ value, 0x80 ≤ c.toNat) (hvl : 3 * value.length ≤ 32766) (rest : List Byte) :
    ∃ st', w.getEnvBuf (w.setEnv env name value) st (name ++ 0 :: rest) = .ok (st', true) ∧ ¬ Holds value st'.narrow := by
  obtain ⟨n1, n2⟩ := wide_eq w (ascii_text hn)
  obtain ⟨v1, v2⟩ := wide_eq w hv
  obtain ⟨-, g2, g3⟩ := grow w value hv
  have hf : w.find (w.setEnv env name value) ((name.map w.page).flatMap utf16) = some ((value.map w.page).flatMap utf16) := by
    unfold Windows.setEnv
    rw [find_set w env hn0, ← n2, ← v2, if_pos (by simp [Windows.same])]
  have hv0 : value ≠ [] := by rintro rfl; obtain ⟨c, hc, -⟩ := hv8; cases hc
  have := C161_get_partial w (w.setEnv env name value) hst n1 (by rw [← n2]; simpa [Windows.wide] using hl) rest v1
    (by simpa using hv0) (by omega) hf
  rw [ascii_enc w hn] at this
  obtain ⟨st', e1, -, e3⟩ := this
  refine ⟨st', e1, fun h => ?_⟩
  have e := holds_unique hv (flatMap_enc_text v1) h e3
  have := g3 hv8
  rw [← e] at this
  omega

/-! ## The hypotheses can be met -/

/-- Latin-1. -/
def latin1 : Windows where
  page b := b.toNat
  upper u := if 0x61#16 ≤ u ∧ u ≤ 0x7a#16 then u - 0x20#16 else u
  ascii _ _ := rfl
  high b h := ⟨h, by have := b.isLt; omega, by have := b.isLt; omega, by have := b.isLt; omega⟩

def empty : Statics := ⟨List.replicate 4096 0, List.replicate 32767 0, List.replicate 32767 0⟩

example : empty.Sized := ⟨List.length_replicate, List.length_replicate, List.length_replicate⟩

/-- `HOME` is set to `/x` and read as `home`. -/
example : latin1.find (latin1.setEnv [] [0x48#8, 0x4f#8, 0x4d#8, 0x45#8] [0x2f#8, 0x78#8]) [0x68#16, 0x6f#16, 0x6d#16, 0x65#16] = some [0x2f#16, 0x78#16] := by decide

example : Ascii [0x48#8, 0x4f#8] ∧ Text [0xc3#8, 0xa9#8] ∧ ∃ c ∈ [0xc3#8, 0xa9#8], 0x80 ≤ (c : Byte).toNat := by
  refine ⟨by unfold Ascii; decide, by unfold Text; decide, 0xc3#8, by simp, by decide⟩

/-- A value of 20000 letters é has 20000 units and needs 40000 bytes. -/
example : ((List.replicate 20000 0xe9).flatMap utf16).length ≤ 32766 ∧ 32766 < ((List.replicate 20000 0xe9).flatMap enc).length := by
  have h : ∀ n, ((List.replicate n 0xe9).flatMap utf16).length = n ∧ ((List.replicate n 0xe9).flatMap enc).length = 2 * n := by
    intro n
    induction n with
    | zero => exact ⟨rfl, rfl⟩
    | succ n ih =>
      rw [List.replicate_succ, List.flatMap_cons, List.flatMap_cons, List.length_append, List.length_append, ih.1, ih.2]
      have h1 : (utf16 0xe9).length = 1 := by decide
      have h2 : (enc 0xe9).length = 2 := by decide
      omega
  rw [(h _).1, (h _).2]; omega

end Zpl.EnvWin
