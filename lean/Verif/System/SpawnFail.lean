import Verif.System.Spawn

set_option autoImplicit false

/-!
# What can go wrong in `unix_system` (Plugins/Unix/unix_sys_utils.cpp)

The order in which pipes, processes, threads and memory are made and given back when system calls fail, and the network of
Spawn.lean for a program that does not ignore SIGPIPE, as is the default (nothing in the library changes it).
-/

namespace Lolly.SpawnFail

open Lolly.Spawn

/-! ## Failing calls -/

/-- Which calls work: the k-th `pipe`, the k-th call that adds a file action, `posix_spawnp`, the k-th `pthread_create`. -/
structure Ora where
  pipe : Nat → Bool
  act : Nat → Bool
  spawn : Bool
  thread : Nat → Bool

/-- What happens in the caller. Threads are numbered from 0 on, first those that write. -/
inductive Event
  /-- a pipe is made -/
  | pipe (k : Nat)
  /-- `~_pipe_t` closes both ends of a pipe -/
  | shut (k : Nat)
  /-- the C string of an argument is made -/
  | newArg (j : Nat)
  | freeArg (j : Nat)
  /-- the process begins -/
  | spawn
  /-- the process has ended and is waited for -/
  | wait
  /-- a thread begins; it uses its channel until it ends -/
  | start (t : Nat)
  /-- the thread has ended -/
  | join (t : Nat)
  /-- the channels are destroyed -/
  | gone
  deriving DecidableEq

/-- The first loop (unix_sys_utils.cpp:216-228) from the k-th call on; the number of calls, `none` for `return -1`. -/
def actIn (act : Nat → Bool) : Nat → List Int → Option Nat
  | k, [] => some k
  | k, fd :: fds =>
    if !act k then none
    else if fd ≥ 0 then
      if !act (k + 1) then none
      else if !act (k + 2) then none
      else actIn act (k + 3) fds
    else actIn act (k + 1) fds

/-- The second loop (unix_sys_utils.cpp:229-239). `adddup2` refuses a negative descriptor. -/
def actOut (act : Nat → Bool) : Nat → List Int → Option Nat
  | k, [] => some k
  | k, fd :: fds =>
    if !act k then none
    else if !act (k + 1) || fd < 0 then none
    else if !act (k + 2) then none
    else actOut act (k + 3) fds

/-- The loops that make threads (unix_sys_utils.cpp:264-282) from the t-th on, `n` of them: what happens, and whether all
could be made. -/
def starts (thread : Nat → Bool) : Nat → Nat → List Event × Bool
  | _, 0 => ([], true)
  | t, n + 1 =>
    if !thread t then ([], false)
    else let (l, b) := starts thread (t + 1) n; (.start t :: l, b)

/-- `~_pipe_t` for all pipes (unix_sys_utils.cpp:108-111). -/
def shuts (n : Nat) : List Event := (List.range n).reverse.map .shut

/-- `unix_system` (unix_sys_utils.cpp:201-310): the answer and what happens. `rest` is the answer after all threads have
ended (293-309). The result of `pipe` is not looked at: if it fails, the descriptors are read although they have no values
(`_pipe_t`, 99-107). -/
def unixSystem (o : Ora) (args : Nat) (ins outs : List Int) (rest : Int) : Res (Int × List Event) :=
  let n := ins.length + outs.length
  if args = 0 then .ok (0, [])
  else if !(List.range n).all o.pipe then .ub
  else
    let made := (List.range n).map Event.pipe
    match (actIn o.act 0 ins).bind fun k => actOut o.act k outs with
    | none => .ok (-1, made ++ shuts n)
    | some _ =>
      let free := (List.range args).map Event.newArg ++ (if o.spawn then [Event.spawn] else []) ++ (List.range args).map Event.freeArg
      if !o.spawn then .ok (-1, made ++ free ++ shuts n)
      else
        match starts o.thread 0 n with
        | (l, false) => .ok (-1, made ++ free ++ l ++ [.gone] ++ shuts n)
        | (l, true) => .ok (rest, made ++ free ++ l ++ [.wait] ++ (List.range n).map Event.join ++ [.gone] ++ shuts n)

/-! ## The signal -/

variable {σ ι κ : Type} [DecidableEq ι] [DecidableEq κ]

/-- The caller is alive, and the network is in some state, or it was killed. -/
inductive Out (σ ι κ : Type)
  | alive (x : Net σ ι κ)
  | killed

/-- The moves if SIGPIPE is not ignored: as in `Spawn.Step`, but writing to a pipe that nobody can read any more kills the
caller instead of failing (unix_sys_utils.cpp:172). -/
inductive SigStep (prog : σ → Act σ ι κ) (cap : Nat) : Out σ ι κ → Out σ ι κ → Prop
  | move (x y : Net σ ι κ) : Step prog cap x y → (∀ i, (y.ws i).failed = (x.ws i).failed) → SigStep prog cap (.alive x) (.alive y)
  | signal (x : Net σ ι κ) (c : UInt8) (i : ι) : x.child = .inr c → (x.ws i).done = false → SigStep prog cap (.alive x) .killed

/-- Executions of `n` steps. -/
inductive SigSteps (prog : σ → Act σ ι κ) (cap : Nat) : Nat → Out σ ι κ → Out σ ι κ → Prop
  | nil (x : Out σ ι κ) : SigSteps prog cap 0 x x
  | snoc {n : Nat} {x y z : Out σ ι κ} : SigSteps prog cap n x y → SigStep prog cap y z → SigSteps prog cap (n + 1) x z

end Lolly.SpawnFail
