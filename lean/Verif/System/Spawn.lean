import Verif.System.Process

set_option autoImplicit false

/-!
# Pipes and threads of `unix_system` (Plugins/Unix/unix_sys_utils.cpp)

Three views of the same function: the descriptors of the new process, the descriptors of the caller, and the network
of the writing threads, the process and the reading threads, in which any of them may move at any time.
`pipe` works (its answer is not looked at in the code).
-/

namespace Lolly.Spawn

/-! ## The descriptors of the new process -/

/-- What a descriptor refers to: an end of the pipe of input `i` or output `j`, or something else. -/
inductive Obj
  | other (n : Nat)
  | inR (i : Nat)
  | inW (i : Nat)
  | outR (j : Nat)
  | outW (j : Nat)
  deriving DecidableEq

/-- A table of descriptors. -/
abbrev Fds := Nat → Option Obj

/-- `close`. -/
def Fds.close (t : Fds) (fd : Nat) : Fds := fun x => if x = fd then none else t x

/-- Let `fd` refer to `o`. -/
def Fds.put (t : Fds) (fd : Nat) (o : Obj) : Fds := fun x => if x = fd then some o else t x

/-- `posix_spawn_file_actions_t`. -/
inductive Action
  | close (fd : Nat)
  | dup2 (fd fd' : Nat)
  deriving DecidableEq

/-- What the new process does before it runs the program; `none` if it gives up. Closing a closed descriptor is no error
(as in glibc), duplicating one is. -/
def runActions (t : Fds) : List Action → Option Fds
  | [] => some t
  | .close fd :: l => runActions (t.close fd) l
  | .dup2 fd fd' :: l =>
    match t fd with
    | none => none
    | some o => runActions (t.put fd' o) l

/-- One of the inputs or outputs: the descriptor asked for, and the two ends of its pipe (`in ()`, `out ()`). -/
structure Port where
  fd : Int
  r : Nat
  w : Nat

/-- The first loop (unix_sys_utils.cpp:216-228). -/
def inActions : List Port → List Action
  | [] => []
  | p :: ps =>
    .close p.w :: (if p.fd ≥ 0 then [.dup2 p.r p.fd.toNat, .close p.r] else []) ++ inActions ps

/-- The second loop (unix_sys_utils.cpp:229-239); `adddup2` refuses a negative descriptor, and then `unix_system` returns
-1. -/
def outActions : List Port → Option (List Action)
  | [] => some []
  | p :: ps =>
    if p.fd < 0 then none
    else (outActions ps).map fun l => .close p.r :: .dup2 p.w p.fd.toNat :: .close p.w :: l

/-- The descriptors of the new process (unix_sys_utils.cpp:216-252), `none` if there is none. -/
def childFds (t : Fds) (ins outs : List Port) : Option Fds :=
  (outActions outs).bind fun l => runActions t (inActions ins ++ l)

/-! ## The descriptors of the caller -/

/-- What happens to the descriptors of the caller: they are closed by `unix_system` and its threads, opened and closed by
other threads. -/
inductive Ev
  | ours (fd : Nat)
  | opens (fd : Nat) (n : Nat)
  | theirs (fd : Nat)
  deriving DecidableEq

/-- One event. `open` takes a free number. -/
def Ev.run (t : Fds) : Ev → Option Fds
  | .ours fd => some (t.close fd)
  | .opens fd n => if t fd = none then some (t.put fd (.other n)) else none
  | .theirs fd => some (t.close fd)

/-- Events in order; `none` if they are not possible. -/
def runEvs (t : Fds) : List Ev → Option Fds
  | [] => some t
  | e :: l => (e.run t).bind fun t => runEvs t l

/-- The closings of `unix_system` after the process has been made: the ends that the process uses
(unix_sys_utils.cpp:259-262), then what the threads close, in any order (`threads`; 150, 176, 180), and at the end both ends
of all pipes (`~_pipe_t`, 108-111; elements of an array are destroyed from the last to the first, fast_alloc.hpp:435-443). -/
def closings (ins outs : List Port) (threads : List Nat) : List Nat :=
  ins.map (·.r) ++ outs.map (·.w) ++ threads ++ outs.reverse.flatMap (fun p => [p.r, p.w]) ++
    ins.reverse.flatMap (fun p => [p.r, p.w])

/-! ## The network -/

/-- What a program does next: read from an input (`none` at its end), write to an output, or exit. -/
inductive Act (σ ι κ : Type)
  | get (i : ι) (k : Option UInt8 → σ)
  | put (j : κ) (b : UInt8) (s : σ)
  | halt (code : UInt8)

/-- A writing thread and its pipe: what is still to be written, what is in the pipe, whether the write end was closed by
the thread, whether the thread has ended, whether its `status` is negative. -/
structure Writer where
  todo : Bytes
  pipe : Bytes
  closed : Bool
  done : Bool
  failed : Bool

/-- A reading thread and its pipe. -/
structure Reader where
  pipe : Bytes
  got : Bytes
  done : Bool

/-- The network: the process runs in some state or has exited. -/
structure Net (σ ι κ : Type) where
  ws : ι → Writer
  rs : κ → Reader
  child : σ ⊕ UInt8

/-- Change one value of a function. -/
def upd {ι α : Type} [DecidableEq ι] (f : ι → α) (i : ι) (a : α) : ι → α := fun x => if x = i then a else f x

/-- The size of the parts in which data is written and read (unix_sys_utils.cpp:268, 278). -/
def chunk : Nat := 4096

/-- The start of a writing thread (unix_sys_utils.cpp:163-168): it ends at once if there is no data. -/
def Writer.start (d : Bytes) : Writer := ⟨d, [], false, d.length = 0, false⟩

/-- One round of `_background_write_task` (unix_sys_utils.cpp:169-182) after which `m` characters are in the pipe. -/
def Writer.write (w : Writer) (m : Nat) : Writer :=
  { w with
    todo := w.todo.drop m, pipe := w.pipe ++ w.todo.take m,
    closed := w.closed || decide (w.todo.length = m), done := decide (w.todo.length = m) }

/-- A round in which `write` fails (unix_sys_utils.cpp:175-178). -/
def Writer.fail (w : Writer) : Writer := { w with closed := true, done := true, failed := true }

/-- One round of `_background_read_task` (unix_sys_utils.cpp:145-148). -/
def Reader.read (r : Reader) (m : Nat) : Reader :=
  { r with pipe := r.pipe.drop m, got := r.got ++ r.pipe.take m }

variable {σ ι κ : Type} [DecidableEq ι] [DecidableEq κ]

/-- The moves. Pipes hold `cap` characters. `write` of at most `PIPE_BUF` = 4096 characters waits until all of them fit, and
fails if nobody can read any more (SIGPIPE is ignored); `read` waits until there is something, gives some part of it, and
tells the end of the file if nobody can write any more; the process is the only one that has the other end
(`C92_child`), and the threads close theirs. -/
inductive Step (prog : σ → Act σ ι κ) (cap : Nat) : Net σ ι κ → Net σ ι κ → Prop
  | write (x : Net σ ι κ) (s : σ) (i : ι) (m : Nat) : x.child = .inl s → (x.ws i).done = false →
      m = min chunk (x.ws i).todo.length → (x.ws i).pipe.length + m ≤ cap →
      Step prog cap x { x with ws := upd x.ws i ((x.ws i).write m) }
  | epipe (x : Net σ ι κ) (c : UInt8) (i : ι) : x.child = .inr c → (x.ws i).done = false →
      Step prog cap x { x with ws := upd x.ws i (x.ws i).fail }
  | get (x : Net σ ι κ) (s : σ) (i : ι) (k : Option UInt8 → σ) (b : UInt8) (r : Bytes) : x.child = .inl s →
      prog s = .get i k → (x.ws i).pipe = b :: r →
      Step prog cap x { x with ws := upd x.ws i { x.ws i with pipe := r }, child := .inl (k (some b)) }
  | eof (x : Net σ ι κ) (s : σ) (i : ι) (k : Option UInt8 → σ) : x.child = .inl s →
      prog s = .get i k → (x.ws i).pipe = [] → (x.ws i).closed = true →
      Step prog cap x { x with child := .inl (k none) }
  | put (x : Net σ ι κ) (s : σ) (j : κ) (b : UInt8) (s' : σ) : x.child = .inl s →
      prog s = .put j b s' → (x.rs j).pipe.length < cap →
      Step prog cap x
        { x with rs := upd x.rs j { x.rs j with pipe := (x.rs j).pipe ++ [b] }, child := .inl s' }
  | halt (x : Net σ ι κ) (s : σ) (c : UInt8) : x.child = .inl s → prog s = .halt c →
      Step prog cap x { x with child := .inr c }
  | read (x : Net σ ι κ) (j : κ) (m : Nat) : (x.rs j).done = false → 1 ≤ m → m ≤ min chunk (x.rs j).pipe.length →
      Step prog cap x { x with rs := upd x.rs j ((x.rs j).read m) }
  | end_ (x : Net σ ι κ) (c : UInt8) (j : κ) : x.child = .inr c → (x.rs j).done = false → (x.rs j).pipe = [] →
      Step prog cap x { x with rs := upd x.rs j { x.rs j with done := true } }

/-- The network when the threads have been made (unix_sys_utils.cpp:264-282). -/
def start (s : σ) (d : ι → Bytes) : Net σ ι κ :=
  ⟨fun i => .start (d i), fun _ => ⟨[], [], false⟩, .inl s⟩

/-- Executions of `n` steps. -/
inductive Steps (prog : σ → Act σ ι κ) (cap : Nat) : Nat → Net σ ι κ → Net σ ι κ → Prop
  | nil (x : Net σ ι κ) : Steps prog cap 0 x x
  | snoc {n : Nat} {x y z : Net σ ι κ} : Steps prog cap n x y → Step prog cap y z → Steps prog cap (n + 1) x z

/-- `waitpid` and all `pthread_join` return (unix_sys_utils.cpp:284-302). -/
def Final (x : Net σ ι κ) : Prop := (∃ c, x.child = .inr c) ∧ (∀ i, (x.ws i).done = true) ∧ ∀ j, (x.rs j).done = true

/-- The answer of `unix_system` in a final state (unix_sys_utils.cpp:294-309); `is` are the inputs. Reading never fails and
`close` works. -/
def answer (is : List ι) (x : Net σ ι κ) : Int :=
  Process.systemResult (is.map fun i => (x.ws i).failed) true x.child.getRight?

end Lolly.Spawn
