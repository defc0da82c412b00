import Verif.Sys.Time

/-!
# Sockets (code/source/socket.c)  -  C131

The Unix variant.  The system is an oracle that decides which of its calls succeed; its state is the list of open sockets with their settings, and the number of address lists that
`getaddrinfo` has allocated.

## Model -/

namespace Zpl.Socket

open Zpl

/-- What the system knows of a socket. -/
structure Sock where
  datagram : Bool
  address : Nat
  dualStack : Bool := false
  noDelay : Bool := false
  nonBlocking : Bool := false
  bound : Bool := false
  connectCalled : Bool := false
  deriving DecidableEq, Repr

structure Net where
  socks : List (Nat × Sock)
  infos : Nat
  deriving DecidableEq, Repr

/-- An address of a host. -/
structure Address where
  id : Nat
  v6 : Bool
  deriving DecidableEq, Repr

/-- The answers of the system: the addresses of host and service, the number of a new socket, and which calls succeed. -/
structure System where
  lookup : Option (Address × List Address)
  newSocket : Net → Option Nat
  bindOk : Address → Bool
  fcntlOk : Bool
  connectOk : Address → Bool

/-- A system call that changes a setting of a socket. -/
def Net.modify (s : Net) (fd : Nat) (f : Sock → Sock) : Net := { s with socks := s.socks.map fun p => if p.1 = fd then (p.1, f p.2) else p }

/-- `freeaddrinfo(result)` -/
def Net.freeInfo (s : Net) : Net := { s with infos := s.infos - 1 }

/-- socket.c:85-97 -/
def createConnect (sys : System) (mode : Int) (flags : BitVec 8) (a : Address) (fd : Nat) (s : Net) : Net × Int :=
  if mode = 1 then
    if sys.connectOk a = false ∧ flags &&& 1#8 = 0#8 then ((s.modify fd fun k => { k with connectCalled := true }).freeInfo, -1)
    else ((s.modify fd fun k => { k with connectCalled := true }).freeInfo, fd)
  else (s.freeInfo, fd)

/-- socket.c:70-83, and what follows. -/
def createBlocking (sys : System) (mode : Int) (flags : BitVec 8) (a : Address) (fd : Nat) (s : Net) : Net × Int :=
  if flags &&& 1#8 ≠ 0#8 then
    if sys.fcntlOk = false then (s.freeInfo, -1)
    else createConnect sys mode flags a fd (s.modify fd fun k => { k with nonBlocking := true })
  else createConnect sys mode flags a fd s

/-- socket.c:63-68, and what follows. -/
def createBind (sys : System) (mode : Int) (flags : BitVec 8) (a : Address) (fd : Nat) (s : Net) : Net × Int :=
  if mode = 0 then
    if sys.bindOk a = false then (s.freeInfo, -1)
    else createBlocking sys mode flags a fd (s.modify fd fun k => { k with bound := true })
  else createBlocking sys mode flags a fd s

/-- socket.c:28-99 `zpl_socket_create`; the options of lines 53-61 are set without a look at the answer and assumed to be set. -/
def create (sys : System) (protocol mode : Int) (flags : BitVec 8) (s : Net) : Net × Int :=
  match sys.lookup with
  | none => (s, -1)
  | some (a, _) =>
    match sys.newSocket s with
    | none => (({ s with infos := s.infos + 1 } : Net).freeInfo, -1)
    | some fd =>
      let s : Net := { socks := (fd, { datagram := protocol == 1, address := a.id }) :: s.socks, infos := s.infos + 1 }
      let s := if a.v6 then s.modify fd fun k => { k with dualStack := true } else s
      let s := if protocol = 0 then s.modify fd fun k => { k with noDelay := flags &&& 2#8 ≠ 0#8 } else s
      createBind sys mode flags a fd s

/-- socket.c:101-107 `zpl_socket_close` -/
def close (fd : Int) (s : Net) : Net := { s with socks := s.socks.filter fun p => (p.1 : Int) ≠ fd }

/-- socket.c:140-142 `zpl_socket_get_address`: the third argument of `getsockname` is the number 128 taken as an address; `mapped` tells which addresses can be accessed.  The result,
and the address stored. -/
def getsockname (mapped : Nat → Bool) (lenPtr : Nat) (name : Option Nat) : Int × Option Nat :=
  if mapped lenPtr then (match name with | some a => (0, some a) | none => (-1, none)) else (-1, none)

def getAddress (mapped : Nat → Bool) (name : Option Nat) : Int × Option Nat := getsockname mapped 128 name

/-- `recvfrom` as in Linux, with a place for the address of the sender: the datagram is taken from the queue before the address is stored.  The result, the bytes received and the rest of the queue. -/
def recvfrom (mapped : Nat → Bool) (lenPtr : Nat) (size : Nat) (queue : List (List (BitVec 8))) : Int × List (BitVec 8) × List (List (BitVec 8)) :=
  match queue with
  | [] => (-1, [], [])
  | d :: q => if mapped lenPtr then ((min size d.length : Nat), d.take size, q) else (-1, [], q)

/-- socket.c:160-162 `zpl_socket_receive_from` -/
def receiveFrom (mapped : Nat → Bool) (size : Nat) (queue : List (List (BitVec 8))) : Int × List (BitVec 8) × List (List (BitVec 8)) := recvfrom mapped 128 size queue

/-- `FD_SET`: the set has 1024 bits, and the macro does not look. -/
def fdSet (fds : List Bool) (i : Nat) : Except Fault (List Bool) := if i < fds.length then .ok (fds.set i true) else .error .oob

/-- socket.c:183-186 -/
def fill : List Int → List Bool → Int → Except Fault (List Bool × Int)
  | [], fds, max => .ok (fds, max)
  | x :: xs, fds, max => do
    let fds ← if x > -1 then fdSet fds x.toNat else .ok fds
    fill xs fds (if x > max then x else max)

/-- socket.c:171-172, 188-189 -/
def timeval (time : F64) : Except Fault (Int × Int) := do
  let sec ← Time.toI64 time
  let usec ← Time.toI64 (F64.mul (F64.sub time (F64.ofInt sec)) (.fin 1000000))
  .ok (sec, usec)

/-- socket.c:164-175 `zpl_socket_select`: the arguments of `select`. -/
def select (socket : Int) (time : F64) : Except Fault (Int × List Bool × Int × Int) := do
  let fds ← if socket > -1 then fdSet (List.replicate 1024 false) socket.toNat else .ok (List.replicate 1024 false)
  let (sec, usec) ← timeval time
  .ok (socket + 1, fds, sec, usec)

/-- socket.c:177-192 `zpl_socket_multi_select`: the arguments of `select`. -/
def multiSelect (sockets : List Int) (time : F64) : Except Fault (Int × List Bool × Int × Int) := do
  let (fds, max) ← fill sockets (List.replicate 1024 false) (-1)
  let (sec, usec) ← timeval time
  .ok (max + 1, fds, sec, usec)

/-! ## Specification -/

/-- The numbers of new sockets are not in use. -/
def System.Fresh (sys : System) : Prop := ∀ s fd, sys.newSocket s = some fd → fd ∉ s.socks.map Prod.fst

/-- The answer of `select` when some sockets are ready: how many of the first `nfds` are in the set and ready. -/
def answer (ready : Nat → Bool) (nfds : Int) (fds : List Bool) : Nat := ((List.range nfds.toNat).filter fun i => fds[i]?.getD false && ready i).length

/-- The settings that were asked for. -/
def wanted (a : Address) (protocol mode : Int) (flags : BitVec 8) : Sock where
  datagram := protocol == 1
  address := a.id
  dualStack := a.v6
  noDelay := protocol == 0 && flags.getLsbD 1
  nonBlocking := flags.getLsbD 0
  bound := mode == 0
  connectCalled := mode == 1

/-! ## Lemmas -/

theorem modify_fresh {fd : Nat} {k : Sock} {l : List (Nat × Sock)} {n : Nat} (h : fd ∉ l.map Prod.fst) (f : Sock → Sock) :
    Net.modify ⟨(fd, k) :: l, n⟩ fd f = ⟨(fd, f k) :: l, n⟩ := by
  unfold Net.modify
  dsimp only
  rw [List.map_cons, if_pos rfl]
  congr 2
  conv => rhs; rw [← List.map_id l]
  apply List.map_congr_left
  intro p hp
  rw [if_neg]
  · rfl
  · rintro rfl
    exact h (List.mem_map_of_mem hp)

theorem bit0 (f : BitVec 8) : (f &&& 1#8 ≠ 0#8) ↔ f.getLsbD 0 = true := by revert f; decide +kernel

theorem bit1 (f : BitVec 8) : (f &&& 2#8 ≠ 0#8) ↔ f.getLsbD 1 = true := by revert f; decide +kernel

/-- All outcomes. -/
theorem create_cases {sys : System} (hf : sys.Fresh) (protocol mode : Int) (flags : BitVec 8) (s : Net) :
    (create sys protocol mode flags s = (s, -1) ∧ (sys.lookup = none ∨ ∃ a as, sys.lookup = some (a, as) ∧ sys.newSocket s = none)) ∨
    ∃ a as fd, sys.lookup = some (a, as) ∧ sys.newSocket s = some fd ∧
      (((mode = 0 ∧ sys.bindOk a = false ∨ flags.getLsbD 0 = true ∧ sys.fcntlOk = false ∨ mode = 1 ∧ sys.connectOk a = false ∧ flags.getLsbD 0 = false) ∧
        ∃ k, create sys protocol mode flags s = (⟨(fd, k) :: s.socks, s.infos⟩, -1)) ∨
       ((mode = 0 → sys.bindOk a = true) ∧ (flags.getLsbD 0 = true → sys.fcntlOk = true) ∧ (mode = 1 → sys.connectOk a = true ∨ flags.getLsbD 0 = true) ∧
        create sys protocol mode flags s = ((⟨(fd, wanted a protocol mode flags) :: s.socks, s.infos⟩ : Net), (fd : Int)))) := by
  unfold create
  cases hl : sys.lookup with
  | none => exact .inl ⟨rfl, .inl rfl⟩
  | some p =>
    obtain ⟨a, as⟩ := p
    dsimp only
    cases hn : sys.newSocket s with
    | none => exact .inl ⟨rfl, .inr ⟨a, as, rfl, rfl⟩⟩
    | some fd =>
      have hfr := hf s fd hn
      refine .inr ⟨a, as, fd, rfl, rfl, ?_⟩
      dsimp only
      have e1 : (if a.v6 = true then Net.modify ⟨(fd, { datagram := protocol == 1, address := a.id }) :: s.socks, s.infos + 1⟩ fd (fun k => { k with dualStack := true })
          else ⟨(fd, { datagram := protocol == 1, address := a.id }) :: s.socks, s.infos + 1⟩) =
          ⟨(fd, { datagram := protocol == 1, address := a.id, dualStack := a.v6 }) :: s.socks, s.infos + 1⟩ := by
        rw [modify_fresh hfr]
        cases a.v6 <;> rfl
      rw [e1]
      have e2 : (if protocol = 0 then Net.modify ⟨(fd, { datagram := protocol == 1, address := a.id, dualStack := a.v6 }) :: s.socks, s.infos + 1⟩ fd (fun k => { k with noDelay := flags &&& 2#8 ≠ 0#8 })
          else ⟨(fd, { datagram := protocol == 1, address := a.id, dualStack := a.v6 }) :: s.socks, s.infos + 1⟩) =
          ⟨(fd, { datagram := protocol == 1, address := a.id, dualStack := a.v6, noDelay := protocol == 0 && flags.getLsbD 1 }) :: s.socks, s.infos + 1⟩ := by
        rw [modify_fresh hfr]
        have hb := bit1 flags
        by_cases hp : protocol = 0
        · rw [if_pos hp]
          simp [hp, hb]
        · rw [if_neg hp]
          simp [hp]
      rw [e2]
      have key : ∀ k : Sock, ((mode = 0 ∧ sys.bindOk a = false ∨ flags.getLsbD 0 = true ∧ sys.fcntlOk = false ∨ mode = 1 ∧ sys.connectOk a = false ∧ flags.getLsbD 0 = false) ∧
            ∃ k', createBind sys mode flags a fd ⟨(fd, k) :: s.socks, s.infos + 1⟩ = (⟨(fd, k') :: s.socks, s.infos⟩, -1)) ∨
          ((mode = 0 → sys.bindOk a = true) ∧ (flags.getLsbD 0 = true → sys.fcntlOk = true) ∧ (mode = 1 → sys.connectOk a = true ∨ flags.getLsbD 0 = true) ∧
            createBind sys mode flags a fd ⟨(fd, k) :: s.socks, s.infos + 1⟩ =
              (⟨(fd, { k with nonBlocking := k.nonBlocking || flags.getLsbD 0, bound := k.bound || mode == 0, connectCalled := k.connectCalled || mode == 1 }) :: s.socks, s.infos⟩, (fd : Int))) := by
        intro k
        have hb := bit0 flags
        unfold createBind createBlocking createConnect
        simp only [modify_fresh hfr]
        by_cases m0 : mode = 0
        · subst m0
          cases hbo : sys.bindOk a <;> cases hfl : flags.getLsbD 0 <;> cases hfc : sys.fcntlOk <;> cases k <;> simp_all [Net.freeInfo]
        · by_cases m1 : mode = 1
          · subst m1
            cases hbo : sys.connectOk a <;> cases hfl : flags.getLsbD 0 <;> cases hfc : sys.fcntlOk <;> cases k <;> simp_all [Net.freeInfo]
          · cases hfl : flags.getLsbD 0 <;> cases hfc : sys.fcntlOk <;> cases k <;> simp_all [Net.freeInfo]
      rcases key { datagram := protocol == 1, address := a.id, dualStack := a.v6, noDelay := protocol == 0 && flags.getLsbD 1 } with h | ⟨h1, h2, h3, h4⟩
      · exact .inl h
      · refine .inr ⟨h1, h2, h3, ?_⟩
        rw [h4]
        rfl

/-! ## C131 -/

/-- A socket that was created has the settings that were asked for, and nothing else has changed. -/
theorem C131_create {sys : System} (hf : sys.Fresh) (protocol mode : Int) (flags : BitVec 8) (s : Net) (h : (create sys protocol mode flags s).2 ≠ -1) :
    ∃ a as fd, sys.lookup = some (a, as) ∧ fd ∉ s.socks.map Prod.fst ∧ create sys protocol mode flags s = (⟨(fd, wanted a protocol mode flags) :: s.socks, s.infos⟩, (fd : Int)) := by
  rcases create_cases hf protocol mode flags s with ⟨h1, -⟩ | ⟨a, as, fd, h1, h2, ⟨-, k, h3⟩ | ⟨-, -, -, h3⟩⟩
  · rw [h1] at h; exact absurd rfl h
  · rw [h3] at h; exact absurd rfl h
  · exact ⟨a, as, fd, h1, hf s fd h2, h3⟩

/-- It is created when every call of the system succeeds; a connection of a socket that does not block may still be under way. -/
theorem C131_created {sys : System} (hf : sys.Fresh) (protocol mode : Int) (flags : BitVec 8) (s : Net) {a : Address} {as : List Address} {fd : Nat} (hl : sys.lookup = some (a, as))
    (hn : sys.newSocket s = some fd) (hb : mode = 0 → sys.bindOk a = true) (hfc : flags.getLsbD 0 = true → sys.fcntlOk = true) (hc : mode = 1 → sys.connectOk a = true ∨ flags.getLsbD 0 = true) :
    (create sys protocol mode flags s).2 = fd := by
  rcases create_cases hf protocol mode flags s with ⟨-, h | ⟨a', as', h, h'⟩⟩ | ⟨a', as', fd', h1, h2, ⟨h3, k, -⟩ | ⟨-, -, -, h3⟩⟩
  · rw [hl] at h; cases h
  · rw [hn] at h'; cases h'
  · rw [hl] at h1
    injection h1 with h1
    injection h1 with h1
    subst h1
    rcases h3 with ⟨h3, h4⟩ | ⟨h3, h4⟩ | ⟨h3, h4, h5⟩
    · rw [hb h3] at h4; cases h4
    · rw [hfc h3] at h4; cases h4
    · rcases hc h3 with h6 | h6
      · rw [h4] at h6; cases h6
      · rw [h5] at h6; cases h6
  · rw [hn] at h2
    injection h2 with h2
    rw [h3, h2]

/-- The addresses of the host are always given back. -/
theorem C131_addresses_freed {sys : System} (hf : sys.Fresh) (protocol mode : Int) (flags : BitVec 8) (s : Net) : (create sys protocol mode flags s).1.infos = s.infos := by
  rcases create_cases hf protocol mode flags s with ⟨h, -⟩ | ⟨a, as, fd, -, -, ⟨-, k, h⟩ | ⟨-, -, -, h⟩⟩ <;> rw [h]

/-- Closing a socket that was created leaves what there was before. -/
theorem C131_close {sys : System} (hf : sys.Fresh) (protocol mode : Int) (flags : BitVec 8) (s : Net) (h : (create sys protocol mode flags s).2 ≠ -1) :
    close (create sys protocol mode flags s).2 (create sys protocol mode flags s).1 = s := by
  obtain ⟨a, as, fd, -, hfr, e⟩ := C131_create hf protocol mode flags s h
  rw [e]
  unfold close
  dsimp only
  rw [List.filter_cons_of_neg (by simp), List.filter_eq_self.2]
  intro p hp
  have : p.1 ≠ fd := by
    rintro rfl
    exact hfr (List.mem_map_of_mem hp)
  simpa using this

/-- When the host is not found or there is no socket, nothing has changed. -/
theorem C131_refused_partial {sys : System} (protocol mode : Int) (flags : BitVec 8) (s : Net) (h : sys.lookup = none ∨ sys.newSocket s = none) :
    create sys protocol mode flags s = (s, -1) := by
  unfold create
  cases hl : sys.lookup with
  | none => rfl
  | some p =>
    rcases h with h | h
    · rw [hl] at h; cases h
    · dsimp only
      rw [h]
      rfl

/-- But when binding, setting the mode or connecting fails, the new socket stays open, and its number is lost. -/
theorem C131_failure_leaks {sys : System} (hf : sys.Fresh) (protocol mode : Int) (flags : BitVec 8) (s : Net) {a : Address} {as : List Address} {fd : Nat} (hl : sys.lookup = some (a, as))
    (hn : sys.newSocket s = some fd)
    (h : mode = 0 ∧ sys.bindOk a = false ∨ flags.getLsbD 0 = true ∧ sys.fcntlOk = false ∨ mode = 1 ∧ sys.connectOk a = false ∧ flags.getLsbD 0 = false) :
    ∃ k, create sys protocol mode flags s = (⟨(fd, k) :: s.socks, s.infos⟩, -1) := by
  rcases create_cases hf protocol mode flags s with ⟨-, h' | ⟨a', as', h', h''⟩⟩ | ⟨a', as', fd', h1, h2, ⟨-, k, h3⟩ | ⟨h3, h4, h5, -⟩⟩
  · rw [hl] at h'; cases h'
  · rw [hn] at h''; cases h''
  · rw [hn] at h2
    injection h2 with h2
    subst h2
    exact ⟨k, h3⟩
  · rw [hl] at h1
    injection h1 with h1
    injection h1 with h1
    subst h1
    rcases h with ⟨h6, h7⟩ | ⟨h6, h7⟩ | ⟨h6, h7, h8⟩
    · rw [h3 h6] at h7; cases h7
    · rw [h4 h6] at h7; cases h7
    · rcases h5 h6 with h9 | h9
      · rw [h7] at h9; cases h9
      · rw [h8] at h9; cases h9

/-- Several calls, one for each list of answers. -/
def createAll (protocol mode : Int) (flags : BitVec 8) : List System → Net → Net
  | [], s => s
  | sys :: l, s => createAll protocol mode flags l (create sys protocol mode flags s).1

/-- So a program that tries again uses up the sockets of the system: after as many failures as there are free ones, no call can succeed. -/
theorem C131_exhausts (limit : Nat) {protocol mode : Int} {flags : BitVec 8} : ∀ {l : List System} {s : Net},
    (∀ sys ∈ l, sys.Fresh ∧ (∀ s, (sys.newSocket s).isSome = true ↔ s.socks.length < limit) ∧ ∃ a as, sys.lookup = some (a, as) ∧ mode = 1 ∧ sys.connectOk a = false ∧ flags.getLsbD 0 = false) →
    s.socks.length + l.length = limit →
    (createAll protocol mode flags l s).socks.length = limit ∧
      ∀ sys : System, (∀ s, (sys.newSocket s).isSome = true ↔ s.socks.length < limit) → ∀ p m f, (create sys p m f (createAll protocol mode flags l s)).2 = -1
  | [], s, _, hl => by
    refine ⟨by simpa [createAll] using hl, fun sys hs p m f => ?_⟩
    have hn : sys.newSocket s = none := by
      cases h : sys.newSocket s with
      | none => rfl
      | some fd =>
        have := (hs s).1 (by rw [h]; rfl)
        simp at hl
        omega
    rw [show createAll protocol mode flags [] s = s from rfl, C131_refused_partial p m f s (.inr hn)]
  | sys :: l, s, h, hl => by
    obtain ⟨hf, hlim, a, as, h1, h2, h3, h4⟩ := h sys (by simp)
    have hlt : s.socks.length < limit := by
      simp only [List.length_cons] at hl
      omega
    obtain ⟨fd, hfd⟩ := Option.isSome_iff_exists.1 ((hlim s).2 hlt)
    obtain ⟨k, e⟩ := C131_failure_leaks hf protocol mode flags s h1 hfd (.inr (.inr ⟨h2, h3, h4⟩))
    have := C131_exhausts limit (protocol := protocol) (mode := mode) (flags := flags) (l := l) (s := (create sys protocol mode flags s).1) (fun x hx => h x (by simp [hx])) (by
      rw [e]
      simp only [List.length_cons] at hl ⊢
      omega)
    exact this

/-- Only the first address of a host is tried. -/
theorem C131_first_address_only (sys : System) (protocol mode : Int) (flags : BitVec 8) (s : Net) {a : Address} {as bs : List Address} :
    create { sys with lookup := some (a, as) } protocol mode flags s = create { sys with lookup := some (a, bs) } protocol mode flags s := rfl

/-- The address of a socket is never told, since the number 128 is no address that a program can use. -/
theorem C131_no_address {mapped : Nat → Bool} (h : mapped 128 = false) (name : Option Nat) : getAddress mapped name = (-1, none) := by
  unfold getAddress getsockname
  rw [h, if_neg Bool.false_ne_true]

/-- Receiving with the address of the sender never succeeds, and the data is gone. -/
theorem C131_receive_from_loses {mapped : Nat → Bool} (h : mapped 128 = false) (size : Nat) (d : List (BitVec 8)) (q : List (List (BitVec 8))) :
    receiveFrom mapped size (d :: q) = (-1, [], q) := by
  unfold receiveFrom recvfrom
  dsimp only
  rw [h, if_neg Bool.false_ne_true]

/-! ### Waiting -/

theorem fill_ok : ∀ {xs : List Int} {fds : List Bool} {max : Int}, fds.length = 1024 → (∀ x ∈ xs, x < 1024) → -1 ≤ max → max < 1024 → (∀ i : Nat, fds[i]? = some true → (i : Int) ≤ max) →
    ∃ fds' max', fill xs fds max = .ok (fds', max') ∧ fds'.length = 1024 ∧ -1 ≤ max' ∧ max' < 1024 ∧
      (∀ i : Nat, fds'[i]? = some true ↔ fds[i]? = some true ∨ (i : Int) ∈ xs) ∧ ∀ i : Nat, fds'[i]? = some true → (i : Int) ≤ max'
  | [], fds, max, hl, _, h0, h1, h2 => ⟨fds, max, rfl, hl, h0, h1, by simp, h2⟩
  | x :: xs, fds, max, hl, hx, h0, h1, h2 => by
    have hx1 := hx x (by simp)
    have hm : -1 ≤ (if x > max then x else max) ∧ (if x > max then x else max) < 1024 ∧ x ≤ (if x > max then x else max) ∧ max ≤ (if x > max then x else max) := by split <;> omega
    by_cases hx0 : x > -1
    · obtain ⟨n, rfl⟩ := Int.eq_ofNat_of_zero_le (show 0 ≤ x by omega)
      have hn : n < fds.length := by omega
      obtain ⟨f, m, e1, e2, e3, e4, e5, e6⟩ := fill_ok (xs := xs) (fds := fds.set n true) (max := if (n : Int) > max then (n : Int) else max) (by simpa using hl) (fun y hy => hx y (by simp [hy])) hm.1 hm.2.1 (by
        intro i hi
        rw [List.getElem?_set] at hi
        split at hi
        · next h => subst h; exact hm.2.2.1
        · exact (h2 i hi).trans hm.2.2.2)
      refine ⟨f, m, ?_, e2, e3, e4, fun i => ?_, e6⟩
      · rw [fill, if_pos hx0, fdSet, if_pos (by simpa using hn)]
        exact e1
      · rw [e5, List.getElem?_set]
        by_cases hni : n = i
        · subst hni
          simp [hn]
        · rw [if_neg hni, List.mem_cons]
          constructor
          · rintro (h | h)
            · exact .inl h
            · exact .inr (.inr h)
          · rintro (h | h | h)
            · exact .inl h
            · omega
            · exact .inr h
    · obtain ⟨f, m, e1, e2, e3, e4, e5, e6⟩ := fill_ok (xs := xs) (fds := fds) (max := if x > max then x else max) hl (fun y hy => hx y (by simp [hy])) hm.1 hm.2.1 (fun i hi => (h2 i hi).trans hm.2.2.2)
      refine ⟨f, m, ?_, e2, e3, e4, fun i => ?_, e6⟩
      · rw [fill, if_neg hx0]
        exact e1
      · rw [e5, List.mem_cons]
        constructor
        · rintro (h | h)
          · exact .inl h
          · exact .inr (.inr h)
        · rintro (h | h | h)
          · exact .inl h
          · omega
          · exact .inr h

theorem answer_pos {ready : Nat → Bool} {nfds : Int} {fds : List Bool} : 0 < answer ready nfds fds ↔ ∃ i : Nat, (i : Int) < nfds ∧ fds[i]? = some true ∧ ready i = true := by
  unfold answer
  rw [List.length_pos_iff_exists_mem]
  constructor
  · rintro ⟨i, hi⟩
    rw [List.mem_filter, List.mem_range, Bool.and_eq_true] at hi
    refine ⟨i, by omega, ?_, hi.2.2⟩
    cases h : fds[i]? with
    | none => rw [h] at hi; simp at hi
    | some b => rw [h] at hi; simpa using hi.2.1
  · rintro ⟨i, h1, h2, h3⟩
    refine ⟨i, ?_⟩
    rw [List.mem_filter, List.mem_range, Bool.and_eq_true, h2]
    exact ⟨by omega, rfl, h3⟩

/-- The fraction of a double is a double, and not too near to one. -/
theorem fraction {q : ℚ} (hr : F64.Representable q) (h0 : 0 ≤ q) :
    (∃ m e : ℤ, |m| < 2 ^ 53 ∧ -1074 ≤ e ∧ q - ⌊q⌋ = m * F64.pow2 e) ∧ 0 ≤ q - ⌊q⌋ ∧ q - ⌊q⌋ ≤ 1 - 1 / 2 ^ 53 := by
  obtain ⟨m, e, hm, he, -, hq⟩ := hr
  have hf0 : 0 ≤ q - ⌊q⌋ := by have := Int.floor_le q; linarith
  have hf1 : q - ⌊q⌋ < 1 := by have := Int.lt_floor_add_one q; linarith
  rcases le_or_gt 0 e with h | h
  · have e1 : q = ((m * 2 ^ e.toNat : ℤ) : ℚ) := by
      rw [hq, F64.pow2, if_pos h]
      push_cast
      ring
    have e2 : q - ⌊q⌋ = 0 := by
      rw [e1, Int.floor_intCast]
      ring
    rw [e2]
    exact ⟨⟨0, 0, by norm_num, by norm_num, by norm_num⟩, le_refl _, by norm_num⟩
  · obtain ⟨n, hn⟩ : ∃ n : ℕ, e = -(n : ℤ) := ⟨(-e).toNat, by omega⟩
    have hp : F64.pow2 e * 2 ^ n = 1 := by
      rw [F64.pow2_eq, hn, zpow_neg, zpow_natCast]
      exact inv_mul_cancel₀ (by positivity)
    have hpp := F64.pow2_pos e
    have hm0 : (0 : ℚ) ≤ m := by
      by_contra hc
      have : (m : ℚ) * F64.pow2 e < 0 := mul_neg_of_neg_of_pos (not_le.1 hc) hpp
      linarith
    have hfl : (0 : ℤ) ≤ ⌊q⌋ := Int.floor_nonneg.2 h0
    obtain ⟨k, hk⟩ : ∃ k : ℤ, k = m - ⌊q⌋ * 2 ^ n := ⟨_, rfl⟩
    have e1 : q - ⌊q⌋ = k * F64.pow2 e := by
      rw [hk]
      push_cast
      have : (⌊q⌋ : ℚ) * 2 ^ n * F64.pow2 e = ⌊q⌋ := by rw [mul_assoc, mul_comm ((2 : ℚ) ^ n), hp, mul_one]
      rw [sub_mul, this]
      linarith
    have hk0 : 0 ≤ k := by
      by_contra hc
      have h1 : (k : ℚ) < 0 := by exact_mod_cast not_le.1 hc
      have : (k : ℚ) * F64.pow2 e < 0 := mul_neg_of_neg_of_pos h1 hpp
      linarith
    have hkm : k ≤ m := by
      have : 0 ≤ ⌊q⌋ * 2 ^ n := by positivity
      omega
    have hk53 : |k| < 2 ^ 53 := by
      rw [abs_lt] at hm ⊢
      omega
    refine ⟨⟨k, e, hk53, he, e1⟩, hf0, ?_⟩
    rcases le_or_gt n 53 with h3 | h3
    · have h4 : k < 2 ^ n := by
        by_contra hc
        have h5 : (2 : ℚ) ^ n ≤ k := by exact_mod_cast not_lt.1 hc
        have := mul_le_mul_of_nonneg_right h5 hpp.le
        rw [mul_comm, hp] at this
        linarith
      have h5 : (k : ℚ) ≤ 2 ^ n - 1 := by exact_mod_cast Int.le_sub_one_of_lt h4
      have h6 := mul_le_mul_of_nonneg_right h5 hpp.le
      have h7 : F64.pow2 (-53) ≤ F64.pow2 e := F64.pow2_le (by omega)
      have h8 : F64.pow2 (-53) = 1 / 2 ^ 53 := by norm_num [F64.pow2_eq]
      rw [h8] at h7
      rw [e1]
      have : ((2 : ℚ) ^ n - 1) * F64.pow2 e = 1 - F64.pow2 e := by rw [sub_mul, mul_comm, hp, one_mul]
      linarith
    · have h5 : (k : ℚ) ≤ 2 ^ 53 := by
        have := (abs_lt.1 hk53).2
        exact_mod_cast this.le
      have h6 := mul_le_mul_of_nonneg_right h5 hpp.le
      have h7 : F64.pow2 e ≤ F64.pow2 (-54) := F64.pow2_le (by omega)
      have h8 : F64.pow2 (-54) = 1 / 2 ^ 54 := by norm_num [F64.pow2_eq]
      rw [h8] at h7
      rw [e1]
      have : (2 : ℚ) ^ 53 * F64.pow2 e ≤ 1 / 2 := by
        have := mul_le_mul_of_nonneg_left h7 (show (0 : ℚ) ≤ 2 ^ 53 by positivity)
        norm_num at this ⊢
        linarith
      norm_num at this ⊢
      linarith

/-- The seconds and microseconds of a time: less than a second's worth of microseconds, not more than the time but for a rounding, and less than a microsecond below. -/
theorem timeval_ok {q : ℚ} (hr : F64.Representable q) (h0 : 0 ≤ q) (h1 : q < 2 ^ 53) :
    ∃ sec usec : Int, timeval (.fin q) = .ok (sec, usec) ∧ 0 ≤ sec ∧ 0 ≤ usec ∧ usec < 10 ^ 6 ∧ q - 1 / 10 ^ 6 < sec + usec / 10 ^ 6 ∧ (sec : ℚ) + usec / 10 ^ 6 ≤ q + 1 / 2 ^ 53 := by
  obtain ⟨⟨m, e, hm, he, hf⟩, hf0, hf1⟩ := fraction hr h0
  have hfl : (0 : ℤ) ≤ ⌊q⌋ := Int.floor_nonneg.2 h0
  have hfl1 : ⌊q⌋ < 2 ^ 53 := by
    have := (Int.floor_le q).trans_lt h1
    exact_mod_cast this
  obtain ⟨f, hff⟩ : ∃ f, f = q - ⌊q⌋ := ⟨_, rfl⟩
  rw [← hff] at hf hf0 hf1
  have hx1 : f * 1000000 ≤ 1000000 * (1 - 1 / 2 ^ 53) := by linarith
  have hx0 : 0 ≤ f * 1000000 := by linarith
  have e1 : F64.sub (.fin q) (F64.ofInt ⌊q⌋) = .fin f := by
    rw [F64.ofInt_eq (by rw [abs_lt]; omega)]
    show F64.round (q + -(⌊q⌋ : ℚ)) = _
    rw [show q + -(⌊q⌋ : ℚ) = f by rw [hff]; ring, Time.round_small hf0 (hf1.trans (by norm_num)), F64.rounded_eq hm he hf]
  have e2 : F64.mul (.fin f) (.fin 1000000) = .fin (F64.rounded (f * 1000000)) := by
    show F64.round (f * 1000000) = _
    exact Time.round_small hx0 (hx1.trans (by norm_num))
  have hr1 : F64.rounded (f * 1000000) < 1000000 := (F64.rounded_mono hx1).trans_lt (by decide +kernel)
  have hr2 : ⌊f * 1000000⌋ ≤ F64.rounded (f * 1000000) := by
    refine F64.le_rounded (F64.int_grid ?_) (Int.floor_le _)
    have h2 : 0 ≤ ⌊f * 1000000⌋ := Int.floor_nonneg.2 hx0
    have h3 : ⌊f * 1000000⌋ < 1000000 := Int.floor_lt.2 (hx1.trans_lt (by norm_num))
    rw [abs_lt]
    omega
  have hr3 := Time.rounded_up hx0 (B := 1000000) (hx1.trans (by norm_num)) (by norm_num)
  have hr0 : 0 ≤ F64.rounded (f * 1000000) := by
    have h2 : 0 ≤ ⌊f * 1000000⌋ := Int.floor_nonneg.2 hx0
    have : (0 : ℚ) ≤ ⌊f * 1000000⌋ := by exact_mod_cast h2
    linarith
  refine ⟨⌊q⌋, ⌊F64.rounded (f * 1000000)⌋, ?_, hfl, Int.floor_nonneg.2 hr0, ?_, ?_, ?_⟩
  · unfold timeval
    rw [Time.toI64_ok h0 (h1.trans (by norm_num))]
    show (Time.toI64 (F64.mul (F64.sub (.fin q) (F64.ofInt ⌊q⌋)) (.fin 1000000)) >>= fun usec => .ok (⌊q⌋, usec)) = _
    rw [e1, e2, Time.toI64_ok hr0 (hr1.trans (by norm_num))]
    rfl
  · exact Int.floor_lt.2 (by push_cast; linarith)
  · have h2 : ⌊f * 1000000⌋ ≤ ⌊F64.rounded (f * 1000000)⌋ := Int.le_floor.2 hr2
    have h3 : (⌊f * 1000000⌋ : ℚ) ≤ ⌊F64.rounded (f * 1000000)⌋ := by exact_mod_cast h2
    have h4 := Int.lt_floor_add_one (f * 1000000)
    have h5 : (⌊q⌋ : ℚ) = q - f := by rw [hff]; ring
    rw [h5]
    have : f - 1 / 10 ^ 6 < (⌊F64.rounded (f * 1000000)⌋ : ℚ) / 10 ^ 6 := by
      rw [lt_div_iff₀ (by norm_num)]
      norm_num
      linarith
    linarith
  · have h4 := Int.floor_le (F64.rounded (f * 1000000))
    have h5 : (⌊q⌋ : ℚ) = q - f := by rw [hff]; ring
    rw [h5]
    have : (⌊F64.rounded (f * 1000000)⌋ : ℚ) / 10 ^ 6 ≤ f + 1 / 2 ^ 53 := by
      rw [div_le_iff₀ (by norm_num)]
      norm_num at hr3 ⊢
      linarith
    linarith

/-- Waiting for one socket: the call of the system is told to look at this one socket and no other, for the time that was asked for. -/
theorem C131_select {socket : Int} (h : socket < 1024) {q : ℚ} (hr : F64.Representable q) (h0 : 0 ≤ q) (h1 : q < 2 ^ 53) :
    ∃ nfds fds sec usec, select socket (.fin q) = .ok (nfds, fds, sec, usec) ∧
      (∀ ready : Nat → Bool, 0 < answer ready nfds fds ↔ 0 ≤ socket ∧ ready socket.toNat = true) ∧
      0 ≤ sec ∧ 0 ≤ usec ∧ usec < 10 ^ 6 ∧ q - 1 / 10 ^ 6 < sec + usec / 10 ^ 6 ∧ (sec : ℚ) + usec / 10 ^ 6 ≤ q + 1 / 2 ^ 53 := by
  obtain ⟨sec, usec, e, ht⟩ := timeval_ok hr h0 h1
  by_cases hs : socket > -1
  · have hl : socket.toNat < (List.replicate 1024 false).length := by
      rw [List.length_replicate]
      omega
    refine ⟨socket + 1, (List.replicate 1024 false).set socket.toNat true, sec, usec, ?_, fun ready => ?_, ht⟩
    · unfold select
      rw [if_pos hs, fdSet, if_pos hl]
      show (timeval (.fin q) >>= _) = _
      rw [e]
      rfl
    · rw [answer_pos]
      constructor
      · rintro ⟨i, -, h3, h4⟩
        rw [List.getElem?_set] at h3
        split at h3
        · next hi => rw [hi]; exact ⟨by omega, h4⟩
        · rw [List.getElem?_replicate] at h3
          split at h3 <;> simp at h3
      · rintro ⟨h3, h4⟩
        exact ⟨socket.toNat, by omega, by rw [List.getElem?_set_self hl], h4⟩
  · refine ⟨socket + 1, List.replicate 1024 false, sec, usec, ?_, fun ready => ?_, ht⟩
    · unfold select
      rw [if_neg hs]
      show (timeval (.fin q) >>= _) = _
      rw [e]
      rfl
    · rw [answer_pos]
      constructor
      · rintro ⟨i, hi, h3, h4⟩
        omega
      · rintro ⟨h3, h4⟩
        omega

/-- Waiting for several sockets: the call is told to look at exactly the sockets in the list that are sockets. -/
theorem C131_multi_select {sockets : List Int} (h : ∀ x ∈ sockets, x < 1024) {q : ℚ} (hr : F64.Representable q) (h0 : 0 ≤ q) (h1 : q < 2 ^ 53) :
    ∃ nfds fds sec usec, multiSelect sockets (.fin q) = .ok (nfds, fds, sec, usec) ∧
      (∀ ready : Nat → Bool, 0 < answer ready nfds fds ↔ ∃ x ∈ sockets, 0 ≤ x ∧ ready x.toNat = true) ∧
      0 ≤ sec ∧ 0 ≤ usec ∧ usec < 10 ^ 6 ∧ q - 1 / 10 ^ 6 < sec + usec / 10 ^ 6 ∧ (sec : ℚ) + usec / 10 ^ 6 ≤ q + 1 / 2 ^ 53 := by
  obtain ⟨sec, usec, e, ht⟩ := timeval_ok hr h0 h1
  have hno : ∀ i : Nat, (List.replicate 1024 false)[i]? ≠ some true := by
    intro i h3
    rw [List.getElem?_replicate] at h3
    split at h3 <;> simp at h3
  obtain ⟨fds, max, e1, -, -, -, e5, e6⟩ := fill_ok (xs := sockets) (fds := List.replicate 1024 false) (max := -1) (List.length_replicate ..) h (by omega) (by omega) (fun i hi => absurd hi (hno i))
  refine ⟨max + 1, fds, sec, usec, ?_, fun ready => ?_, ht⟩
  · unfold multiSelect
    rw [e1]
    show (timeval (.fin q) >>= _) = _
    rw [e]
    rfl
  · rw [answer_pos]
    constructor
    · rintro ⟨i, -, h3, h4⟩
      rcases (e5 i).1 h3 with h5 | h5
      · exact absurd h5 (hno i)
      · exact ⟨i, h5, by omega, h4⟩
    · rintro ⟨x, hx, h3, h4⟩
      have h5 : fds[x.toNat]? = some true := (e5 _).2 (.inr (by rwa [Int.toNat_of_nonneg h3]))
      have := e6 _ h5
      exact ⟨x.toNat, by omega, h5, h4⟩

/-- A socket with a number of 1024 or more is written beyond the end of the set on the stack. -/
theorem C131_select_overruns {socket : Int} (h : 1024 ≤ socket) (time : F64) : select socket time = .error .oob := by
  unfold select
  rw [if_pos (by omega), fdSet, if_neg (by rw [List.length_replicate]; omega)]
  rfl

theorem C131_multi_select_overruns : ∀ {sockets : List Int} (time : F64), (∃ x ∈ sockets, 1024 ≤ x) → multiSelect sockets time = .error .oob := by
  intro sockets time h
  have key : ∀ (xs : List Int) (fds : List Bool) (max : Int), fds.length = 1024 → (∃ x ∈ xs, 1024 ≤ x) → fill xs fds max = .error .oob := by
    intro xs
    induction xs with
    | nil => rintro _ _ _ ⟨x, hx, -⟩; cases hx
    | cons y ys ih =>
      rintro fds max hl ⟨x, hx, h⟩
      rw [fill]
      by_cases hy : 1024 ≤ y
      · rw [if_pos (by omega), fdSet, if_neg (by omega)]
        rfl
      · have hx' : x ∈ ys := by
          rcases List.mem_cons.1 hx with rfl | h'
          · omega
          · exact h'
        by_cases hy0 : y > -1
        · rw [if_pos hy0, fdSet, if_pos (by omega)]
          exact ih _ _ (by simpa using hl) ⟨x, hx', h⟩
        · rw [if_neg hy0]
          exact ih _ _ hl ⟨x, hx', h⟩
  unfold multiSelect
  rw [key _ _ _ (List.length_replicate ..) h]
  rfl

/-! ### Examples -/

/-- A system with two addresses of the host and at most three sockets, numbered from 3 on, where nobody answers a call. -/
def sample : System where
  lookup := some (⟨7, true⟩, [⟨8, false⟩])
  newSocket s := if s.socks.length < 3 then some (s.socks.foldr (fun p n => max (p.1 + 1) n) 3) else none
  bindOk _ := true
  fcntlOk := true
  connectOk _ := false

theorem sample_fresh : sample.Fresh := by
  intro s fd h
  have key : ∀ l : List (Nat × Sock), ∀ p ∈ l, p.1 < l.foldr (fun p n => max (p.1 + 1) n) 3 := by
    intro l
    induction l with
    | nil => intro p hp; cases hp
    | cons q l ih =>
      intro p hp
      rw [List.foldr_cons]
      rcases List.mem_cons.1 hp with rfl | hp
      · omega
      · have := ih p hp
        omega
  have hfd : fd = s.socks.foldr (fun p n => max (p.1 + 1) n) 3 := by
    unfold sample at h
    dsimp only at h
    split at h
    · injection h with h; exact h.symm
    · cases h
  intro hm
  obtain ⟨p, hp, e⟩ := List.mem_map.1 hm
  have := key _ p hp
  omega

example : create sample 0 0 2#8 ⟨[], 0⟩ = (⟨[(3, { datagram := false, address := 7, dualStack := true, noDelay := true, bound := true })], 0⟩, 3) := by decide +kernel

example : (create sample 0 1 1#8 ⟨[], 0⟩).2 = 3 := C131_created sample_fresh 0 1 1#8 _ rfl rfl (by decide) (fun _ => rfl) (fun _ => .inr rfl)

example : ∃ k, create sample 0 1 0#8 ⟨[], 0⟩ = (⟨[(3, k)], 0⟩, -1) := C131_failure_leaks sample_fresh 0 1 0#8 _ rfl rfl (.inr (.inr ⟨rfl, rfl, rfl⟩))

example : (create sample 1 0 0#8 (createAll 0 1 0#8 [sample, sample, sample] ⟨[], 0⟩)).2 = -1 :=
  have hl : ∀ s, (sample.newSocket s).isSome = true ↔ s.socks.length < 3 := by
    intro s
    unfold sample
    dsimp only
    split <;> simp_all
  (C131_exhausts 3 (fun sys h => by
    obtain rfl : sys = sample := by simpa using h
    exact ⟨sample_fresh, hl, _, _, rfl, rfl, rfl, rfl⟩) rfl).2 sample hl 1 0 0#8

/-- A wait of two and a half seconds. -/
example : select 5 (.fin (5 / 2)) = .ok (6, (List.replicate 1024 false).set 5 true, 2, 500000) := by decide +kernel

example : F64.Representable (5 / 2) := ⟨5, -1, by norm_num, by norm_num, by norm_num, by norm_num [F64.pow2_eq]⟩

example : (multiSelect [4, -1, 9] (.fin (1 / 4))).toOption.map (fun r => (r.1, r.2.2)) = some (10, 0, 250000) := by decide +kernel

end Zpl.Socket
