import Verif.System.Spawn

set_option autoImplicit false

/-!
# Processes on Windows: `win_system` (Plugins/Windows/win_sys_utils.cpp, spawn.cpp)

One thread of the caller writes all inputs in turn, one thread per output reads it. The network consists of this
writer, the process, which is an arbitrary program, and the readers; any of them may move at any time. Pipes hold `cap`
characters. `_write` puts what fits into the pipe and waits for room for the rest; it fails if nobody can read any more.
The process is the only one that holds the other ends of the pipes. Exit statuses are bytes here.
-/

namespace Lolly.WinSpawn

open Spawn (Act Reader upd)

/-- `sz` of `Channel` (spawn.hpp:25): at most so many characters are written at once. -/
def sz : Nat := 2048

/-- The size of the buffer of `bkgread` (spawn.cpp:111). -/
def bufSize : Nat := 1024

/-- An input: what was not yet put into the pipe, what is in the pipe, whether the caller has closed its end. -/
structure In where
  todo : Bytes
  pipe : Bytes
  closed : Bool

/-- Where the caller is (win_sys_utils.cpp:91-115). -/
inductive Phase (ι κ : Type)
  /-- in the loop over the inputs, before those in `rest` -/
  | visit (rest : List ι) (busy : Bool)
  /-- in `_write` on input `i`, with `left` characters to go, and the inputs in `rest` to come -/
  | writing (i : ι) (rest : List ι) (busy : Bool) (left : Nat)
  /-- in `_cwait` -/
  | waiting
  /-- waiting for the threads that read the outputs in `rest` -/
  | joining (rest : List κ)
  | returned

structure Net (σ ι κ : Type) where
  ins : ι → In
  rs : κ → Reader
  child : σ ⊕ UInt8
  phase : Phase ι κ

variable {σ ι κ : Type} [DecidableEq ι] [DecidableEq κ]

/-- `ch[i].close ()` if everything was written, otherwise `busy= true` (win_sys_utils.cpp:105-106). -/
def In.finish (w : In) : In := { w with closed := w.closed || w.todo.isEmpty }

/-- The moves. `is` and `ks` are the inputs and outputs in their order. With `slow`, a thread that reads may take longer
than the five seconds that `Channel::wait` gives it. -/
inductive Step (prog : σ → Act σ ι κ) (cap : Nat) (slow : Bool) (is : List ι) (ks : List κ) :
    Net σ ι κ → Net σ ι κ → Prop
  /-- the end of the loop over the inputs (win_sys_utils.cpp:91-93, 110) -/
  | again (x : Net σ ι κ) : x.phase = .visit [] true → Step prog cap slow is ks x { x with phase := .visit is false }
  | leave (x : Net σ ι κ) : x.phase = .visit [] false → Step prog cap slow is ks x { x with phase := .waiting }
  /-- `N (str_in[i]) > pos_in[i]` is false (win_sys_utils.cpp:99) -/
  | skip (x : Net σ ι κ) (i : ι) (rest : List ι) (busy : Bool) : x.phase = .visit (i :: rest) busy → (x.ins i).todo = [] →
      Step prog cap slow is ks x { x with phase := .visit rest busy }
  /-- the call of `_write` (win_sys_utils.cpp:100-102) -/
  | call (x : Net σ ι κ) (i : ι) (rest : List ι) (busy : Bool) : x.phase = .visit (i :: rest) busy → (x.ins i).todo ≠ [] →
      Step prog cap slow is ks x { x with phase := .writing i rest busy (min sz (x.ins i).todo.length) }
  /-- `m` characters fit into the pipe -/
  | push (x : Net σ ι κ) (s : σ) (i : ι) (rest : List ι) (busy : Bool) (left m : Nat) : x.child = .inl s →
      x.phase = .writing i rest busy left → 1 ≤ m → m ≤ left → (x.ins i).pipe.length + m ≤ cap →
      Step prog cap slow is ks x
        { x with
          ins := upd x.ins i { x.ins i with todo := (x.ins i).todo.drop m, pipe := (x.ins i).pipe ++ (x.ins i).todo.take m }
          phase := .writing i rest busy (left - m) }
  /-- `_write` returns (win_sys_utils.cpp:103-107) -/
  | ret (x : Net σ ι κ) (i : ι) (rest : List ι) (busy : Bool) : x.phase = .writing i rest busy 0 →
      Step prog cap slow is ks x
        { x with ins := upd x.ins i (x.ins i).finish, phase := .visit rest (busy || !(x.ins i).todo.isEmpty) }
  /-- `_write` fails, because the process has ended: `o < 0` (win_sys_utils.cpp:103). In the code `pos_in[i]` is then
  what it was before the call; here what was put into the pipe is gone from `todo`. Neither is all of the input, and
  nothing will be written any more. -/
  | fail (x : Net σ ι κ) (c : UInt8) (i : ι) (rest : List ι) (busy : Bool) (left : Nat) : x.child = .inr c →
      x.phase = .writing i rest busy left → 0 < left →
      Step prog cap slow is ks x { x with phase := .visit rest busy }
  /-- the process -/
  | get (x : Net σ ι κ) (s : σ) (i : ι) (k : Option UInt8 → σ) (b : UInt8) (r : Bytes) : x.child = .inl s →
      prog s = .get i k → (x.ins i).pipe = b :: r →
      Step prog cap slow is ks x { x with ins := upd x.ins i { x.ins i with pipe := r }, child := .inl (k (some b)) }
  | eof (x : Net σ ι κ) (s : σ) (i : ι) (k : Option UInt8 → σ) : x.child = .inl s →
      prog s = .get i k → (x.ins i).pipe = [] → (x.ins i).closed = true →
      Step prog cap slow is ks x { x with child := .inl (k none) }
  | put (x : Net σ ι κ) (s : σ) (j : κ) (b : UInt8) (s' : σ) : x.child = .inl s →
      prog s = .put j b s' → (x.rs j).pipe.length < cap →
      Step prog cap slow is ks x
        { x with rs := upd x.rs j { x.rs j with pipe := (x.rs j).pipe ++ [b] }, child := .inl s' }
  | halt (x : Net σ ι κ) (s : σ) (c : UInt8) : x.child = .inl s → prog s = .halt c →
      Step prog cap slow is ks x { x with child := .inr c }
  /-- a round of `bkgread` (spawn.cpp:109-120) -/
  | read (x : Net σ ι κ) (j : κ) (m : Nat) : (x.rs j).done = false → 1 ≤ m → m ≤ min bufSize (x.rs j).pipe.length →
      Step prog cap slow is ks x { x with rs := upd x.rs j ((x.rs j).read m) }
  | end_ (x : Net σ ι κ) (c : UInt8) (j : κ) : x.child = .inr c → (x.rs j).done = false → (x.rs j).pipe = [] →
      Step prog cap slow is ks x { x with rs := upd x.rs j { x.rs j with done := true } }
  /-- `_cwait` returns (spawn.cpp:135) -/
  | wait (x : Net σ ι κ) (c : UInt8) : x.child = .inr c → x.phase = .waiting →
      Step prog cap slow is ks x { x with phase := .joining ks }
  /-- `Channel::wait` (spawn.cpp:84-89, 137-138): the thread has ended -/
  | join (x : Net σ ι κ) (j : κ) (rest : List κ) : x.phase = .joining (j :: rest) → (x.rs j).done = true →
      Step prog cap slow is ks x { x with phase := .joining rest }
  /-- `Channel::wait`: five seconds are over -/
  | late (x : Net σ ι κ) (j : κ) (rest : List κ) : slow = true → x.phase = .joining (j :: rest) → (x.rs j).done = false →
      Step prog cap slow is ks x { x with phase := .joining rest }
  /-- the end of `win_system` (win_sys_utils.cpp:114-116) -/
  | finish (x : Net σ ι κ) : x.phase = .joining [] → Step prog cap slow is ks x { x with phase := .returned }

/-- The network when the threads have been made (win_sys_utils.cpp:79-93). -/
def start (s : σ) (d : ι → Bytes) (is : List ι) : Net σ ι κ :=
  ⟨fun i => ⟨d i, [], false⟩, fun _ => ⟨[], [], false⟩, .inl s, .visit is false⟩

/-- Executions of `n` steps. -/
inductive Steps (prog : σ → Act σ ι κ) (cap : Nat) (slow : Bool) (is : List ι) (ks : List κ) :
    Nat → Net σ ι κ → Net σ ι κ → Prop
  | nil (x : Net σ ι κ) : Steps prog cap slow is ks 0 x x
  | snoc {n : Nat} {x y z : Net σ ι κ} : Steps prog cap slow is ks n x y → Step prog cap slow is ks y z →
      Steps prog cap slow is ks (n + 1) x z

/-- What `win_system` gives back: the exit status and the strings for the outputs (win_sys_utils.cpp:113-116). If a thread
is still reading, the string is used by two threads, and destroyed before the thread is stopped (`str` is declared after
`ch`): undefined. Only meaningful when the phase is `returned`. -/
def result (ks : List κ) (x : Net σ ι κ) : Res (UInt8 × List Bytes) :=
  match x.child with
  | .inl _ => .hang
  | .inr c => if ∀ j ∈ ks, (x.rs j).done = true then .ok (c, ks.map fun j => (x.rs j).got) else .ub

/-- What comes after `_spawnvp` (spawn.cpp:127, spawn.hpp:58; win_sys_utils.cpp:74-77): `isRunning` is false only for
the number 0, but `_spawnvp` tells failure by -1. `process.getpid () << LF` shifts the number to the left by three bits (`LF`
is 3, basic.hpp:287), which is undefined for negative numbers and if bits are lost. -/
def afterSpawn (pid : Int) : Res (Option Int) :=
  if pid = 0 then .ok (some (-1))
  else if pid < 0 ∨ 2 ^ 29 ≤ pid then .ub
  else .ok none

end Lolly.WinSpawn
