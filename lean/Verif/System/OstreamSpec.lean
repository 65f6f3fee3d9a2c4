import Verif.System.Ostream

set_option autoImplicit false

/-!
# Output streams without reference counts

The same programs when streams are never destroyed. `none` is a mistake of the program: a variable or a file that does
not exist, or `unbuffer` on a stream that is not buffered.
-/

namespace Lolly.Ostream

inductive Stream
  /-- the file, if there is one, and whether it still takes output -/
  | file (k : Option Nat) (ok : Bool)
  /-- a buffer and the stream below it -/
  | buffer (below : Nat) (data : Bytes)
  deriving DecidableEq

structure SWorld where
  vars : List Nat
  streams : List Stream
  files : List Bytes
  deriving DecidableEq

/-- Characters that arrive at a stream. -/
def emit (fails : Nat → Bytes → Bytes → Option Nat) (w : SWorld) (id : Nat) (s : Bytes) : SWorld :=
  match w.streams[id]? with
  | some (.buffer b d) => { w with streams := w.streams.set id (.buffer b (d ++ s)) }
  | some (.file (some k) true) =>
    match w.files[k]? with
    | some c =>
      if s = [] then w
      else
        match fails k c s with
        | none => { w with files := w.files.set k (c ++ s) }
        | some n => { w with files := w.files.set k (c ++ s.take n), streams := w.streams.set id (.file (some k) false) }
    | none => w
  | _ => w

/-- The characters of a string arrive one by one; those that are NUL do not arrive. -/
def emitString (fails : Nat → Bytes → Bytes → Option Nat) (w : SWorld) (id : Nat) (s : Bytes) : SWorld :=
  (s.filter (· ≠ 0)).foldl (fun w c => emit fails w id [c]) w

/-- `n` is the number of files the program has got from the start. -/
def sstep (fails : Nat → Bytes → Bytes → Option Nat) (n : Nat) (w : SWorld) : Op → Option (SWorld × List Bytes)
  | .sink => some ({ w with vars := w.vars ++ [w.streams.length], streams := w.streams ++ [.file none true] }, [])
  | .file k =>
    if k < n then
      some ({ w with vars := w.vars ++ [w.streams.length], streams := w.streams ++ [.file (some k) true] }, [])
    else none
  | .create true =>
    some (⟨w.vars ++ [w.streams.length], w.streams ++ [.file (some w.files.length) true], w.files ++ [[]]⟩, [])
  | .create false => some ({ w with vars := w.vars ++ [w.streams.length], streams := w.streams ++ [.file none false] }, [])
  | .copy i => w.vars[i]?.map fun id => ({ w with vars := w.vars ++ [id] }, [])
  | .assign i j =>
    w.vars[j]?.bind fun id => if i < w.vars.length then some ({ w with vars := w.vars.set i id }, []) else none
  | .drop i => if i < w.vars.length then some ({ w with vars := w.vars.eraseIdx i }, []) else none
  | .buffer i =>
    w.vars[i]?.map fun id =>
      ({ w with vars := w.vars.set i w.streams.length, streams := w.streams ++ [.buffer id []] }, [])
  | .unbuffer i =>
    w.vars[i]?.bind fun id =>
      match w.streams[id]? with
      | some (.buffer b d) => some ({ w with vars := w.vars.set i b }, [d])
      | _ => none
  | .puts i s => w.vars[i]?.map fun id => (emit fails w id (s.takeWhile (· ≠ 0)), [])
  | .write i s => w.vars[i]?.map fun id => (emitString fails w id s, [])

def srun (fails : Nat → Bytes → Bytes → Option Nat) (n : Nat) (w : SWorld) : List Op → Option (SWorld × List Bytes)
  | [] => some (w, [])
  | op :: l =>
    (sstep fails n w op).bind fun r => (srun fails n r.1 l).map fun q => (q.1, r.2 ++ q.2)

def sstart (n : Nat) : SWorld := ⟨[], [], List.replicate n []⟩

/-- The streams that a variable can still get at, by writing or by taking buffers away. -/
inductive Reachable (w : SWorld) : Nat → Prop
  | var {id : Nat} : id ∈ w.vars → Reachable w id
  | under {id b : Nat} {d : Bytes} : Reachable w id → w.streams[id]? = some (.buffer b d) → Reachable w b

end Lolly.Ostream
