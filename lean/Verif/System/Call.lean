import Verif.Basic

set_option autoImplicit false

/-!
# Running a command (lolly/system/subprocess.cpp:25-53)

`lolly::system::call` on Linux and macOS. `wordexp` and `tb_process_run` are oracles. The version for Windows gives the
command to `tb_process_run_cmd` as it is, the one for WebAssembly gives -1; they are not modelled.
-/

namespace Lolly.Call

/-- The calls of the system. -/
structure Shell where
  /-- `wordexp (s, &p, 0)`: the result and the words in `p` afterwards -/
  wordexp : Bytes → Int × List Bytes
  /-- `tb_process_run (words[0], words, &attr)`, a `tb_long_t` -/
  run : List Bytes → Int

/-- What comes of a call. -/
structure Outcome where
  /-- the result -/
  ret : Int
  /-- the programs that were run, with their arguments -/
  ran : List (List Bytes)
  /-- words that were not given back with `wordfree` -/
  kept : List Bytes
  deriving DecidableEq

/-- The conversion from `tb_long_t` to `int`. -/
def toInt (v : Int) : Int := if 2 ^ 31 ≤ v % 2 ^ 32 then v % 2 ^ 32 - 2 ^ 32 else v % 2 ^ 32

/-- `call (cmd)` (lolly/system/subprocess.cpp:31-53); `cmd_c` ends with the first NUL; `EINVAL` is 22. -/
def call (sh : Shell) (cmd : Bytes) : Outcome :=
  let p := sh.wordexp (cmd.takeWhile (· ≠ 0))
  if p.1 ≠ 0 then ⟨p.1, [], p.2⟩
  else if p.2.length = 0 then ⟨22, [], []⟩
  else ⟨toInt (sh.run p.2), [p.2], []⟩

end Lolly.Call
