import Verif.Basic

/-!
# Lists of elements whose copying throws (Kernel/Containers/list.hpp, list.ipp)

The functions that make lists, where copying an element may throw an exception. Copies are numbered one after the other;
`fails k` says that copy number `k` throws. Nodes have reference counts, so that it can be told which of them are freed when
the stack is unwound, and elements that exist are counted.

To make a node copies an element three times (list.hpp:124, 139-140): for the parameter of `list (T item, list<T> next)`, then
`tm_new` takes a block of memory and does not give it back when the constructor throws (fast_alloc.hpp:97-103), for the
parameter of `list_rep (T item2, list<T> next2)`, and for the member.

Simplifications: the counts of the nodes of lists that are passed by value go up and down again and are left out, also
while a node is made: the new node takes over the handle. The memory that one block needs is always available. What element a
copy gives is what was copied.
-/

set_option autoImplicit false

namespace Lolly.ListThrow

variable {T : Type}

/-- `list_rep<T>` (list.hpp:113-133). -/
structure Node (T : Type) where
  item : T
  next : Option Nat
  count : Nat
  deriving DecidableEq

/-- Memory: the nodes (`none`: freed), the number of the next copy, how many elements exist, and how many blocks were taken to
which no pointer is left. -/
structure St (T : Type) where
  heap : List (Option (Node T))
  copies : Nat
  elems : Int
  lost : Nat
  deriving DecidableEq

/-- Outcomes: both a result and an exception leave memory behind. -/
inductive Out (T α : Type)
  | ret (x : α) (s : St T)
  | thrown (s : St T)
  | ub
  | hang
  deriving DecidableEq

variable (fails : Nat → Bool)

/-- One copy of an element; `after` is done to memory when it throws. -/
def elem (s : St T) (after : St T → Out T (Option Nat)) (k : St T → Out T (Option Nat)) : Out T (Option Nat) :=
  if fails s.copies then
    match after { s with copies := s.copies + 1 } with
    | .ret _ s => .thrown s
    | o => o
  else k { s with copies := s.copies + 1, elems := s.elems + 1 }

/-- `~list` (classdef.hpp:112-118, 400) of the only handle or of one of several: nodes without handles are freed with their
elements, one after the other. -/
def drop : Nat → Option Nat → St T → Out T (Option Nat)
  | 0, _, _ => .hang
  | _ + 1, none, s => .ret none s
  | f + 1, some a, s =>
    match s.heap[a]? with
    | some (some nd) =>
      if nd.count = 1 then drop f nd.next { s with heap := s.heap.set a none, elems := s.elems - 1 }
      else .ret none { s with heap := s.heap.set a (some { nd with count := nd.count - 1 }) }
    | _ => .ub

/-- Destroy a handle while memory has its present size. -/
def release (p : Option Nat) (s : St T) : Out T (Option Nat) := drop (s.heap.length + 1) p s

/-- What `list (T item, list<T> next)` does once its parameters exist (list.hpp:139-140): the block is taken, `item` is copied
twice, and the first two copies are destroyed. If a copy throws, the block is lost, and the parameters are destroyed. -/
def inside (item : T) (r : Option Nat) (s : St T) : Out T (Option Nat) :=
  elem fails s (fun s => release r { s with elems := s.elems - 1, lost := s.lost + 1 }) fun s =>
  elem fails s (fun s => release r { s with elems := s.elems - 2, lost := s.lost + 1 }) fun s =>
  .ret (some s.heap.length) { s with heap := s.heap ++ [some ⟨item, r, 1⟩], elems := s.elems - 2 }

/-- `list<T> (item, rest)` where `rest` is a call. The compiler chooses which argument it evaluates first; if it is the item, its
copy exists during the call and is destroyed when this throws. -/
def node (early : Bool) (item : T) (rest : St T → Out T (Option Nat)) (s : St T) : Out T (Option Nat) :=
  if early then
    elem fails s (fun s => .ret none s) fun s =>
    match rest s with
    | .ret r s => inside fails item r s
    | .thrown s => .thrown { s with elems := s.elems - 1 }
    | o => o
  else
    match rest s with
    | .ret r s => elem fails s (release r) fun s => inside fails item r s
    | o => o

variable (early : Bool)

/-- `copy` (list.ipp:162-167). -/
def copy : Nat → Option Nat → St T → Out T (Option Nat)
  | 0, _, _ => .hang
  | _ + 1, none, s => .ret none s
  | f + 1, some a, s =>
    match s.heap[a]? with
    | some (some nd) => node fails early nd.item (copy f nd.next) s
    | _ => .ub

/-- `l1 * l2` (list.ipp:176-181). -/
def concat : Nat → Option Nat → Option Nat → St T → Out T (Option Nat)
  | 0, _, _, _ => .hang
  | f + 1, none, q, s => copy fails early f q s
  | f + 1, some a, q, s =>
    match s.heap[a]? with
    | some (some nd) => node fails early nd.item (concat f nd.next q) s
    | _ => .ub

/-- `head` (list.ipp:183-189). -/
def head : Nat → Option Nat → Int → St T → Out T (Option Nat)
  | 0, _, _, _ => .hang
  | f + 1, p, n, s =>
    if n = 0 then .ret none s
    else
      match p with
      | none => .thrown s
      | some a =>
        match s.heap[a]? with
        | some (some nd) => node fails early nd.item (head f nd.next (n - 1)) s
        | _ => .ub

/-- `reverse` (list.ipp:201-210): the loop with the list `r` made so far, which is destroyed when a copy throws. -/
def reverse : Nat → Option Nat → Option Nat → St T → Out T (Option Nat)
  | 0, _, _, _ => .hang
  | _ + 1, none, r, s => .ret r s
  | f + 1, some a, r, s =>
    match s.heap[a]? with
    | some (some nd) =>
      match node fails false nd.item (fun s => .ret r s) s with
      | .ret r s => reverse f nd.next r s
      | o => o
    | _ => .ub

/-- `l << item` (list.ipp:47-53): the item is a parameter and copied for every call; the result is what `l` is afterwards. -/
def push (x : T) : Nat → Option Nat → St T → Out T (Option Nat)
  | 0, _, _ => .hang
  | f + 1, p, s =>
    elem fails s (fun s => .ret none s) fun s =>
    match p with
    | none =>
      match node fails false x (fun s => .ret none s) s with
      | .ret r s => .ret r { s with elems := s.elems - 1 }
      | .thrown s => .thrown { s with elems := s.elems - 1 }
      | o => o
    | some a =>
      match s.heap[a]? with
      | some (some nd) =>
        match push x f nd.next s with
        | .ret r s => .ret (some a) { s with heap := s.heap.set a (some { nd with next := r }), elems := s.elems - 1 }
        | .thrown s => .thrown { s with elems := s.elems - 1 }
        | o => o
      | _ => .ub

/-- A copy of a handle (classdef.hpp:397-399). -/
def hold (p : Option Nat) (s : St T) : Out T (Option Nat) :=
  match p with
  | none => .ret none s
  | some a =>
    match s.heap[a]? with
    | some (some nd) => .ret p { s with heap := s.heap.set a (some { nd with count := nd.count + 1 }) }
    | _ => .ub

/-- `item >> l` (list.ipp:63-67): the list is the tail of the new one, to which `l` is set. -/
def unshift (x : T) (p : Option Nat) (s : St T) : Out T (Option Nat) :=
  elem fails s (fun s => .ret none s) fun s =>
  match node fails false x (hold p) s with
  | .ret r s =>
    match release p s with
    | .ret _ s => .ret r { s with elems := s.elems - 1 }
    | o => o
  | .thrown s => .thrown { s with elems := s.elems - 1 }
  | o => o

end Lolly.ListThrow
