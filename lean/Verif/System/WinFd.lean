import Verif.Basic

set_option autoImplicit false

/-!
# Model of the descriptors in `win_system` (Plugins/Windows/spawn.cpp, win_sys_utils.cpp)

A table of descriptors gives for each number what it refers to and whether a new process inherits it. Which free number the
system gives is an oracle `pick`, which may also fail. `_pipe`, `_dup`, `_dup2` and `_close` are those of the C library of
Windows: `_dup` and `_dup2` give descriptors that are inherited, and closing a number that is not open is counted in `bad`
(the library returns an error, or ends the program). Not code of the repository: `pipe`, `dup`, `dup2`, `close`.
-/

namespace Lolly.WinFd

/-- What a descriptor refers to: a file of the caller, or the end of the `k`-th pipe from which one reads or to which one
writes. -/
inductive Obj
  | file (n : Nat)
  | rd (k : Nat)
  | wr (k : Nat)
  deriving DecidableEq

/-- What is open under a number. -/
structure Entry where
  obj : Obj
  inherit : Bool
  deriving DecidableEq

abbrev Table := Nat → Option Entry

/-- The descriptors of the caller, the number of calls of `_pipe` so far, and how often a number was closed that was not open. -/
structure St where
  tab : Table
  pipes : Nat
  bad : Nat

/-- The system gives a number that is free, or fails. -/
abbrev Pick := Table → Option Nat

def put (t : Table) (x : Nat) (e : Option Entry) : Table := fun y => if y = x then e else t y

def pipe (pick : Pick) (inherit : Bool) (s : St) : Option (Nat × Nat) × St :=
  match pick s.tab with
  | none => (none, { s with pipes := s.pipes + 1 })
  | some a =>
    let t := put s.tab a (some ⟨.rd s.pipes, inherit⟩)
    match pick t with
    | none => (none, { s with pipes := s.pipes + 1 })
    | some b => (some (a, b), ⟨put t b (some ⟨.wr s.pipes, inherit⟩), s.pipes + 1, s.bad⟩)

def close (s : St) (x : Nat) : St :=
  match s.tab x with
  | none => { s with bad := s.bad + 1 }
  | some _ => { s with tab := put s.tab x none }

def dup (pick : Pick) (s : St) (x : Nat) : Option Nat × St :=
  match s.tab x, pick s.tab with
  | some e, some y => (some y, { s with tab := put s.tab y (some ⟨e.obj, true⟩) })
  | _, _ => (none, s)

def dup2 (s : St) (x y : Nat) : St :=
  match s.tab x with
  | some e => if x = y then s else { s with tab := put s.tab y (some ⟨e.obj, true⟩) }
  | none => s

/-- `Channel::Direction` (spawn.hpp:24): `CHIN` sends to the process, `CHOUT` receives from it. -/
inductive Dir
  | chout
  | chin
  deriving DecidableEq

/-- The fields `origin`, `saved`, `fd`, `toBeClosed` of a `Channel` (spawn.hpp:44-47), `none` for -1. -/
structure Channel where
  origin : Option Nat
  saved : Option Nat
  fd : Option Nat
  toBeClosed : Option Nat
  deriving DecidableEq

/-- `Channel::Channel` (spawn.cpp:17-24). -/
def Channel.new : Channel := ⟨none, none, none, none⟩

/-- `pp[d]` (`CHOUT` is 0, `CHIN` is 1). -/
def side (d : Dir) (pp : Nat × Nat) : Nat := match d with | .chout => pp.1 | .chin => pp.2

/-- `otherDirection` (spawn.hpp:41-43). -/
def other : Dir → Dir
  | .chout => .chin
  | .chin => .chout

/-- `Channel::Init (d)` (spawn.cpp:26-41). -/
def initAny (pick : Pick) (s : St) (d : Dir) : Channel × St :=
  match pipe pick false s with
  | (none, s) => (.new, s)
  | (some pp, s) =>
    match pipe pick true s with
    | (some pr, s) =>
      let s := close s (side d pr)
      let s := dup2 s (side (other d) pp) (side (other d) pr)
      let s := close s (side (other d) pp)
      let s := close s (side (other d) pp)
      (⟨none, none, some (side d pp), some (side (other d) pr)⟩, s)
    | (none, s) => (.new, close (close s (side d pp)) (side (other d) pp))

/-- `Channel::Init (_fd, d)` (spawn.cpp:43-52). -/
def initAt (pick : Pick) (s : St) (x : Nat) (d : Dir) : Channel × St :=
  match pipe pick false s with
  | (some pp, s) => (⟨some x, none, some (side d pp), some (side (other d) pp)⟩, s)
  | (none, s) => (.new, s)

/-- `Channel::redirect` (spawn.cpp:54-59). -/
def redirect (pick : Pick) (s : St) (c : Channel) : Channel × St :=
  match c.origin, c.toBeClosed with
  | some o, some y =>
    let r := dup pick s o
    ({ c with saved := r.1 }, dup2 r.2 y o)
  | _, _ => (c, s)

/-- `Channel::restore` (spawn.cpp:91-98). -/
def restore (s : St) (c : Channel) : Channel × St :=
  match c.saved, c.origin with
  | some x, some o => ({ c with saved := none }, close (dup2 s x o) x)
  | _, _ => (c, s)

/-- `Channel::closeUnused` (spawn.cpp:75-82). -/
def closeUnused (s : St) (c : Channel) : Channel × St :=
  match c.toBeClosed with
  | some y => restore (close s y) { c with toBeClosed := none }
  | none => restore s c

/-- `Channel::close` (spawn.cpp:67-73). -/
def closeFd (s : St) (c : Channel) : Channel × St :=
  match c.fd with
  | some x => ({ c with fd := none }, close s x)
  | none => (c, s)

/-- `Channel::~Channel` (spawn.cpp:100-107), without the thread. -/
def destroy (s : St) (c : Channel) : Channel × St :=
  let r := closeUnused s c
  closeFd r.2 r.1

/-- A loop over the channels. -/
def each (f : St → Channel → Channel × St) : St → List Channel → List Channel × St
  | s, [] => ([], s)
  | s, c :: cs =>
    let r := f s c
    let q := each f r.2 cs
    (r.1 :: q.1, q.2)

/-- A descriptor that is asked for (`none` if it is negative) and the direction: first those of `fd_in`, then those of
`fd_out`. -/
abbrev Req := Option Nat × Dir

/-- `Init` with or without a number (win_sys_utils.cpp:48-49, 53-54). -/
def initOne (pick : Pick) (s : St) (o : Option Nat) (d : Dir) : Channel × St :=
  match o with
  | some x => initAt pick s x d
  | none => initAny pick s d

/-- The loops that make the channels (win_sys_utils.cpp:46-55). -/
def initAll (pick : Pick) : St → List Req → List Channel × St
  | s, [] => ([], s)
  | s, (o, d) :: rs =>
    let r := initOne pick s o d
    let q := initAll pick r.2 rs
    (r.1 :: q.1, q.2)

/-- The channels and descriptors when `_spawnvp` is called (spawn.cpp:125-127). `pick` gives the numbers for pipes and `dpick`
those for `_dup`. -/
def before (pick dpick : Pick) (s : St) (rs : List Req) : List Channel × St :=
  let r := initAll pick s rs
  each (redirect dpick) r.2 r.1

/-- The channels and descriptors after the constructor of `spawn_system` (spawn.cpp:122-130). -/
def running (pick dpick : Pick) (s : St) (rs : List Req) : List Channel × St :=
  let r := before pick dpick s rs
  each closeUnused r.2 r.1

/-- While the process runs, channels are closed: inputs by the caller when all was written, outputs by their threads at the end
of the data. `done` tells which. -/
def closeSome (s : St) : List Bool → List Channel → List Channel × St
  | b :: bs, c :: cs =>
    let r := if b then closeFd s c else (c, s)
    let q := closeSome r.2 bs cs
    (r.1 :: q.1, q.2)
  | _, cs => (cs, s)

/-- The descriptors after `win_system`: the channels that are still open are closed when the array `ch` is destroyed. -/
def after (pick dpick : Pick) (s : St) (rs : List Req) (done : List Bool) : St :=
  let r := running pick dpick s rs
  let q := closeSome r.2 done r.1
  (each destroy q.2 q.1).2

end Lolly.WinFd
