import Verif.Basic

set_option autoImplicit false

/-!
# Output streams (System/IO/tm_ostream.cpp)

A `tm_ostream` is a handle to a stream object with a reference count: a standard stream on a `FILE`, or a buffered one
on top of another stream object. A destroyed object stays in the list, marked; to touch it is undefined behaviour. An
object counts as destroyed when its destructor starts.

`fails k c s` tells what happens when `s` is printed to the file `k`, which has received `c` so far: `none` for success,
`some n` for an error after `n` characters. Flushing has no effect here. Numbers are printed with `sprintf` and
`const char*`, so they are a case of `puts`.
-/

namespace Lolly.Ostream

inductive Kind
  /-- `std_ostream_rep` (System/IO/tm_ostream.cpp:41-84): `file`, `is_w`, `is_mine` -/
  | std (file : Option Nat) (isW own : Bool)
  /-- `buffered_ostream_rep` (lines 117-131) -/
  | buf (master : Nat) (data : Bytes)
  deriving DecidableEq

structure Rep where
  count : Int
  kind : Kind
  alive : Bool
  deriving DecidableEq

/-- A `FILE`: what was printed, and whether it is open. -/
structure File where
  out : Bytes
  isOpen : Bool
  deriving DecidableEq

structure World where
  /-- the `rep` of every `tm_ostream` variable -/
  vars : List Nat
  reps : List Rep
  files : List File
  deriving DecidableEq

/-- `INC_COUNT (R)` (Kernel/Abstractions/classdef.hpp:74-75). -/
def inc (reps : List Rep) (id : Nat) : Res (List Rep) :=
  match reps[id]? with
  | some r => if r.alive then .ok (reps.set id { r with count := r.count + 1 }) else .ub
  | none => .ub

/-- `fclose (file)`. -/
def close (files : List File) (k : Nat) : Res (List File) :=
  match files[k]? with
  | some f => if f.isOpen then .ok (files.set k { f with isOpen := false }) else .ub
  | none => .ub

/-- `DEC_COUNT (R)` (Kernel/Abstractions/classdef.hpp:84-89) with the destructors
(System/IO/tm_ostream.cpp:86-88, 133). -/
def dec : Nat → List Rep → List File → Nat → Res (List Rep × List File)
  | 0, _, _, _ => .hang
  | fuel + 1, reps, files, id =>
    match reps[id]? with
    | none => .ub
    | some r =>
      if !r.alive then .ub
      else if r.count - 1 = 0 then
        let reps := reps.set id { r with count := 0, alive := false }
        match r.kind with
        | .std (some k) _ true => do
          let files ← close files k
          .ok (reps, files)
        | .std _ _ _ => .ok (reps, files)
        | .buf m _ => dec fuel reps files m
      else .ok (reps.set id { r with count := r.count - 1 }, files)

def release (reps : List Rep) (files : List File) (id : Nat) : Res (List Rep × List File) := dec reps.length reps files id

/-- The characters before the first NUL. -/
def cstr (s : Bytes) : Bytes := s.takeWhile (· ≠ 0)

/-- `rep->write (s)`: `std_ostream_rep::write` (lines 95-106), `buffered_ostream_rep::write` (lines 140-143). -/
def writeRep (fails : Nat → Bytes → Bytes → Option Nat) (w : World) (id : Nat) (s : Bytes) : Res World :=
  match w.reps[id]? with
  | none => .ub
  | some r =>
    if !r.alive then .ub
    else
      match r.kind with
      | .buf m d => .ok { w with reps := w.reps.set id { r with kind := .buf m (d ++ s) } }
      | .std none _ _ => .ok w
      | .std (some k) isW own =>
        if !isW then .ok w
        else
          match w.files[k]? with
          | none => .ub
          | some f =>
            if !f.isOpen then .ub
            else if s = [] then .ok w
            else
              match fails k f.out s with
              | none => .ok { w with files := w.files.set k { f with out := f.out ++ s } }
              | some n =>
                .ok { w with
                  files := w.files.set k { f with out := f.out ++ s.take n }
                  reps := w.reps.set id { r with kind := .std (some k) false own } }

/-- `operator<< (tm_ostream&, string)` (lines 327-334) with `operator<< (char)` (lines 225-231): the `"%c"` of every
character is written as a C string. -/
def writeString (fails : Nat → Bytes → Bytes → Option Nat) (w : World) (id : Nat) : Bytes → Res World
  | [] => .ok w
  | c :: s => do
    let w ← writeRep fails w id (cstr [c])
    writeString fails w id s

inductive Op
  /-- `tm_ostream x;` (line 149) -/
  | sink
  /-- `tm_ostream x (f)` for a `FILE*` (line 155): not closed by the stream -/
  | file (k : Nat)
  /-- `tm_ostream x (name)` (line 152); whether `fopen` succeeds. The file is new. -/
  | create (ok : Bool)
  /-- `tm_ostream x (y)` (line 158) -/
  | copy (i : Nat)
  /-- `x = y` and `x.redirect (y)` (lines 169-175, 207-212) -/
  | assign (i j : Nat)
  /-- the end of a variable (line 164) -/
  | drop (i : Nat)
  | buffer (i : Nat)
  | unbuffer (i : Nat)
  /-- `x << "..."` (lines 321-325) -/
  | puts (i : Nat) (s : Bytes)
  /-- `x << string` -/
  | write (i : Nat) (s : Bytes)

def var (w : World) (i : Nat) : Res Nat :=
  match w.vars[i]? with
  | some id => .ok id
  | none => .ub

/-- The world after an operation, and what `unbuffer` has returned. -/
def step (fails : Nat → Bytes → Bytes → Option Nat) (w : World) : Op → Res (World × List Bytes)
  | .sink => .ok ({ w with vars := w.vars ++ [w.reps.length], reps := w.reps ++ [⟨1, .std none true true, true⟩] }, [])
  | .file k => .ok ({ w with vars := w.vars ++ [w.reps.length], reps := w.reps ++ [⟨1, .std (some k) true false, true⟩] }, [])
  | .create true =>
    .ok (⟨w.vars ++ [w.reps.length], w.reps ++ [⟨1, .std (some w.files.length) true true, true⟩], w.files ++ [⟨[], true⟩]⟩, [])
  | .create false =>
    .ok ({ w with vars := w.vars ++ [w.reps.length], reps := w.reps ++ [⟨1, .std none false false, true⟩] }, [])
  | .copy i => do
    let id ← var w i
    let reps ← inc w.reps id
    .ok ({ w with vars := w.vars ++ [id], reps := reps }, [])
  | .assign i j => do
    -- the argument is a copy
    let x ← var w j
    let reps ← inc w.reps x
    let reps ← inc reps x
    let old ← var w i
    let (reps, files) ← release reps w.files old
    let (reps, files) ← release reps files x
    .ok (⟨w.vars.set i x, reps, files⟩, [])
  | .drop i => do
    let id ← var w i
    let (reps, files) ← release w.reps w.files id
    .ok (⟨w.vars.eraseIdx i, reps, files⟩, [])
  | .buffer i => do
    -- System/IO/tm_ostream.cpp:191-195; the new object takes over the count of the old `rep`
    let id ← var w i
    .ok ({ w with vars := w.vars.set i w.reps.length, reps := w.reps ++ [⟨1, .buf id [], true⟩] }, [])
  | .unbuffer i => do
    -- System/IO/tm_ostream.cpp:197-205
    let id ← var w i
    match w.reps[id]? with
    | some r =>
      if !r.alive then .ub
      else
        match r.kind with
        | .std _ _ _ => .ub
        | .buf m d => do
          let reps ← inc w.reps m
          let (reps, files) ← release reps w.files id
          .ok (⟨w.vars.set i m, reps, files⟩, [d])
    | none => .ub
  | .puts i s => do
    let id ← var w i
    let w ← writeRep fails w id (cstr s)
    .ok (w, [])
  | .write i s => do
    let id ← var w i
    let w ← writeString fails w id s
    .ok (w, [])

def run (fails : Nat → Bytes → Bytes → Option Nat) (w : World) : List Op → Res (World × List Bytes)
  | [] => .ok (w, [])
  | op :: l => do
    let (w, a) ← step fails w op
    let (w, b) ← run fails w l
    .ok (w, a ++ b)

/-- At the start: no stream objects, and `n` files the program has got (such as `stdout`). -/
def start (n : Nat) : World := ⟨[], [], List.replicate n ⟨[], true⟩⟩

end Lolly.Ostream
