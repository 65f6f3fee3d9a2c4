import Verif.Loop
import Verif.Strings.Search
import Verif.Strings.Convert

set_option autoImplicit false

/-!
# Running processes (lolly/system/subprocess.cpp, Plugins/Unix/unix_sys_utils.cpp)

The answers of the system calls are functions of the number of the call, so that every schedule is covered.
-/

namespace Lolly.Process

/-! ## check_output -/

/-- The pipe of `check_output`: what has been read, what the process has written or will write and was not read, and
the numbers of calls made. -/
structure Pipe where
  data : Bytes
  rest : Bytes
  reads : Nat
  waits : Nat

/-- How the calls answer. `read i = none` is an error, `some n` gives at most `n` characters, fewer if the buffer is full
or the process has written fewer. `wait j` is the answer of `tb_pipe_file_wait`. -/
structure Answers where
  read : Nat → Option Nat
  wait : Nat → Int

/-- The inner loop (subprocess.cpp:97-100): the number of waits and the last answer. -/
def waitLoop (a : Answers) : Nat → Int → Nat → Nat × Int
  | 0, ok, j => (j, ok)
  | retry + 1, ok, j => if ok = 0 then waitLoop a retry (a.wait j) (j + 1) else (j, ok)

/-- The outer loop (subprocess.cpp:85-105) with a buffer of `size` characters. -/
def readLoop (a : Answers) (size : Nat) : Nat → Bool → Pipe → Res Pipe
  | 0, _, _ => .hang
  | f + 1, wait, p =>
    if p.data.length < size then
      match a.read p.reads with
      | none => .ok { p with reads := p.reads + 1 }
      | some n =>
        let k := min n (min (size - p.data.length) p.rest.length)
        if 0 < k then
          readLoop a size f false
            { p with data := p.data ++ p.rest.take k, rest := p.rest.drop k, reads := p.reads + 1 }
        else if !wait then
          let retry := if 0 < p.data.length then 2 else 25
          let (j, ok) := waitLoop a retry 0 p.waits
          let p' := { p with reads := p.reads + 1, waits := j }
          if 0 < ok then readLoop a size f true p'
          else .ok p'
        else .ok { p with reads := p.reads + 1 }
    else .ok p

/-- `as_string ((tb_char_t*) data)` of a buffer that was zero before (subprocess.cpp:107): reading goes on until a NUL,
beyond the end of the buffer if there is none. -/
def cstring (size : Nat) (data : Bytes) : Res Bytes :=
  if data.length < size ∨ 0 ∈ data then .ok (data.takeWhile (· ≠ 0)) else .ub

/-- `result` after `check_output` of a process that writes `out` (subprocess.cpp:56-119); creating the pipe and the process
works. -/
def checkOutput (a : Answers) (out : Bytes) : Res Bytes := do
  let p ← readLoop a 8192 (2 * 8192 + 2) false ⟨[], out, 0, 0⟩
  cstring 8192 p.data

/-! ## The buffers of the threads -/

/-- `_ts_string` (unix_sys_utils.cpp:63-70): `n` characters in use of the `l` characters at `a`. -/
structure Ts where
  n : Nat
  l : Nat
  a : Bytes

/-- A new one (unix_sys_utils.cpp:67). -/
def Ts.empty : Ts := ⟨0, 0, []⟩

/-- `memcpy (a + i, b, b.length)`. -/
def memcpy (a : Bytes) (i : Nat) (b : Bytes) : Res Bytes :=
  if i + b.length ≤ a.length then .ok (a.take i ++ b ++ a.drop (i + b.length)) else .ub

/-- `resize (m)` (unix_sys_utils.cpp:72-80). New memory holds anything. `2 * n` and `m` are ints. -/
def Ts.resize (junk : Nat → UInt8) (t : Ts) (m : Nat) : Res Ts :=
  if m ≤ t.n then .ok t
  else if 2 * t.n < 2 ^ 31 ∧ m < 2 ^ 31 then do
    let l := max (2 * t.n) m
    if t.n ≤ t.a.length then do
      let a ← memcpy ((List.range l).map junk) 0 (t.a.take t.n)
      .ok ⟨t.n, l, a⟩
    else .ub
  else .ub

/-- `append (b, m)` (unix_sys_utils.cpp:82-86). -/
def Ts.append (junk : Nat → UInt8) (t : Ts) (b : Bytes) : Res Ts := do
  let t ← t.resize junk (b.length + t.n)
  let a ← memcpy t.a t.n b
  .ok ⟨t.n + b.length, t.l, a⟩

/-- `copy (b, m)` (unix_sys_utils.cpp:88-92). -/
def Ts.copy (junk : Nat → UInt8) (t : Ts) (b : Bytes) : Res Ts := do
  let t ← t.resize junk b.length
  let a ← memcpy t.a 0 b
  .ok ⟨b.length, t.l, a⟩

/-- The characters in use. -/
def Ts.view (t : Ts) : Bytes := t.a.take t.n

/-! ## The threads -/

/-- What a thread did to its descriptor: the characters written, the number of times it was closed, whether
`status` is negative. -/
structure Task where
  written : Bytes
  closed : Nat
  failed : Bool
  deriving DecidableEq

/-- The loop of `_background_write_task` (unix_sys_utils.cpp:169-182). `write i` is the answer of the i-th call (at most
the number of characters asked for), `closes` the answer of `close`. -/
def writeLoop (write : Nat → Int) (closes : Bool) (d : Bytes) (n : Nat) : Nat → Nat → Nat → Task → Res Task
  | 0, _, _, _ => .hang
  | f + 1, i, k, t =>
    let m := min n (d.length - k)
    let o := min (write i) m
    let k' := if 0 < o then k + o.toNat else k
    let t1 := if 0 < o then { t with written := t.written ++ (d.drop k).take o.toNat } else t
    let t2 := if o < 0 then { t1 with closed := t1.closed + 1, failed := true } else t1
    let t3 := if k' = d.length then { t2 with closed := t2.closed + 1, failed := t2.failed || !closes } else t2
    if 0 < o ∧ k' < d.length then writeLoop write closes d n f (i + 1) k' t3 else .ok t3

/-- `_background_write_task` (unix_sys_utils.cpp:156-184) for the data `d` and chunks of `n` characters. -/
def writeTask (write : Nat → Int) (closes : Bool) (d : Bytes) (n : Nat) : Res Task :=
  if d.length = 0 then .ok ⟨[], 0, false⟩
  else if n = 0 then .ok ⟨[], 0, true⟩
  else writeLoop write closes d n (d.length + 1) 0 0 ⟨[], 0, false⟩

/-- `_background_read_task` (unix_sys_utils.cpp:137-154). `read i` is the answer of the i-th call: `none` an error, `some []`
the end of the file. The channel's `data`, the number of closes and the status. -/
def readLoopT (junk : Nat → UInt8) (read : Nat → Option Bytes) (closes : Bool) : Nat → Nat → Ts → Res (Ts × Nat × Bool)
  | 0, _, _ => .hang
  | f + 1, i, t =>
    match read i with
    | none => .ok (t, 0, false)
    | some b =>
      if b.length = 0 then .ok (t, 1, !closes)
      else do
        let t ← t.append junk b
        readLoopT junk read closes f (i + 1) t

/-- The result of `unix_system` after the process has ended (unix_sys_utils.cpp:284-309): `failed` are the states of the
channels, `waited` tells whether `waitpid` worked, `exit` is the exit status if the process has exited by itself. -/
def systemResult (failed : List Bool) (waited : Bool) (exit : Option UInt8) : Int :=
  if failed.any id then -1
  else if !waited then -1
  else
    match exit with
    | none => -1
    | some e => e.toNat

/-! ## The arguments -/

/-- The inner loop (unix_sys_utils.cpp:242-245) for one argument by itself: replace `$$i`; `fds` are the pairs of `fd_in[i]`
and the descriptor of the pipe, from number `i` on. -/
def substArg (fds : List (Int × Nat)) (i : Nat) (s : Bytes) : Res Bytes :=
  match fds with
  | [] => .ok s
  | (fd, p) :: fds =>
    if fd < 0 then do
      let s ← An.replace (s.length + 1) s ((b!"$$") ++ Conv.asString i) (Conv.asString p)
      substArg fds (i + 1) s
    else substArg fds (i + 1) s

/-- The arguments of the new process (unix_sys_utils.cpp:240-245), on a heap of arrays of strings: `array<string> arg_= arg`
copies the handle `arg`, so the loop works on the array of the caller. -/
def substArgs (fds : List (Int × Nat)) (hp : List (List Bytes)) (arg : Nat) : Res (List (List Bytes)) := do
  let arg_ := arg
  let a ← rd hp arg
  forUp 0 a.length hp fun j hp =>
    forUp 0 fds.length hp fun i hp => do
      let (fd, p) ← rd fds i
      if fd < 0 then do
        let a ← rd hp arg_
        let s ← rd a j
        let s ← An.replace (s.length + 1) s ((b!"$$") ++ Conv.asString i) (Conv.asString p)
        let a ← wr a j s
        wr hp arg_ a
      else .ok hp

end Lolly.Process
