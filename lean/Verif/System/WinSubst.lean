import Verif.System.Process

/-!
# The arguments of a process on Windows

The placeholders in the arguments of `win_system`
(Plugins/Windows/win_sys_utils.cpp:56-65).
-/

set_option autoImplicit false

namespace Lolly.WinSubst

/-- An input: `fd_in[i]`, `ch[i].getPipe ()` and `_get_osfhandle (ch[i].getPipe ())`. -/
structure Input where
  fd : Int
  pipe : Int
  handle : Int

/-- The body of the loops for input `i` (win_sys_utils.cpp:60-64): `$%i` becomes the
handle, then `$$i` the descriptor. -/
def replaceOne (i : Nat) (x : Input) (s : Bytes) : Res Bytes := do
  let s ← An.replace (s.length + 1) s ((b!"$%") ++ Conv.asString i) (Conv.asString x.handle)
  An.replace (s.length + 1) s ((b!"$$") ++ Conv.asString i) (Conv.asString x.pipe)

/-- The inner loop (win_sys_utils.cpp:58-65) for one argument by itself, from input
number `i` on. -/
def substArg (ins : List Input) (i : Nat) (s : Bytes) : Res Bytes :=
  match ins with
  | [] => .ok s
  | x :: ins =>
    if x.fd < 0 then do
      let s ← replaceOne i x s
      substArg ins (i + 1) s
    else substArg ins (i + 1) s

/-- The loops (win_sys_utils.cpp:56-65), on a heap of arrays of strings:
`array<::string> arg_= arg` copies the handle `arg`, so the loops work on the array of
the caller. -/
def substArgs (ins : List Input) (hp : List (List Bytes)) (arg : Nat) : Res (List (List Bytes)) := do
  let arg_ := arg
  let a ← rd hp arg
  forUp 0 a.length hp fun j hp =>
    forUp 0 ins.length hp fun i hp => do
      let x ← rd ins i
      if x.fd < 0 then do
        let a ← rd hp arg_
        let s ← rd a j
        let s ← replaceOne i x s
        let a ← wr a j s
        wr hp arg_ a
      else .ok hp

end Lolly.WinSubst
