import Verif.Data.Utf16

set_option autoImplicit false

/-!
# The arguments of `main` on Windows (lolly/system/args.cpp, lolly/system/args.hpp)

An object of class `args` replaces `argc` and `argv` by the arguments of the command line in UTF-8 while it lives. On other
systems the class does nothing (args.hpp:49-54). Exceptions are not modelled; the copies of the strings in `arg_values_`
have no effect.
-/

namespace Lolly.Args

open Lolly.Utf16

/-- The array `argv` points to. -/
inductive Argv
  /-- the array given to `main` -/
  | given
  /-- `&dummy` (args.cpp:38), one null pointer -/
  | dummy
  /-- the elements of `args_`: pointers to strings on the heap, or null -/
  | own (ptrs : List (Option Nat))
  deriving DecidableEq

/-- The variables of `main` and the C strings on the heap. -/
structure St where
  argc : Int
  argv : Argv
  heap : List Bytes
  deriving DecidableEq

/-- The loop (args.cpp:45-48): `wargv` from index `i` on. -/
def fill (conv : Conv) : List (List UInt16) → Nat → List (Option Nat) → List Bytes → Res (List (Option Nat) × List Bytes)
  | [], _, ptrs, heap => .ok (ptrs, heap)
  | a :: l, i, ptrs, heap => do
    let s ← wcharToUtf8 conv a
    let ptrs ← wr ptrs i (some heap.length)
    fill conv l (i + 1) ptrs (heap ++ [s])

/-- `fix_args` (args.cpp:32-57); `wide` is what `CommandLineToArgvW` gives, `none` for an error. -/
def fixArgs (conv : Conv) (wide : Option (List (List UInt16))) (st : St) : Res St :=
  match wide with
  | none => .ok { st with argc := 0, argv := .dummy }
  | some l => do
    let (ptrs, heap) ← fill conv l 0 (List.replicate (l.length + 1) none) st.heap
    .ok ⟨l.length, .own ptrs, heap⟩

/-- An object with what it remembers (args.hpp:37-40). -/
structure Obj where
  oldArgc : Int
  oldArgv : Argv

/-- The constructor (args.hpp:22-26). -/
def create (conv : Conv) (wide : Option (List (List UInt16))) (st : St) : Res (Obj × St) := do
  let o : Obj := ⟨st.argc, st.argv⟩
  let st ← fixArgs conv wide st
  .ok (o, st)

/-- The destructor (args.hpp:29-32). The strings made by `as_charp` stay. -/
def destroy (o : Obj) (st : St) : St := { st with argc := o.oldArgc, argv := o.oldArgv }

/-- `argv[i]` as a C string: `none` for a null pointer. What `main` was given is `orig`. -/
def arg (orig : List Bytes) (st : St) (i : Nat) : Res (Option Bytes) :=
  match st.argv with
  | .given => if i = orig.length then .ok none else do
    let s ← rd orig i
    .ok (some s)
  | .dummy => if i = 0 then .ok none else .ub
  | .own ptrs =>
    match ptrs[i]? with
    | none => .ub
    | some none => .ok none
    | some (some p) => do
      let s ← rd st.heap p
      .ok (some (s.takeWhile (· ≠ 0)))

end Lolly.Args
