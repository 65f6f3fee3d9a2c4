import Verif.Containers.ListThrow

/-!
# Lists of elements whose copying throws: functions with an element as parameter

`operator* (list<T>, T)` and `remove` (list.ipp:169-174, 212-218) copy the element for every call of themselves. Comparing
elements does not throw and copies none.
-/

set_option autoImplicit false

namespace Lolly.ListThrow

variable {T : Type} (fails : Nat → Bool) (early : Bool)

/-- A call with an element as parameter, which is copied first and destroyed in the end, also when the body throws. -/
def param (body : St T → Out T (Option Nat)) (s : St T) : Out T (Option Nat) :=
  elem fails s (fun s => .ret none s) fun s =>
  match body s with
  | .ret r s => .ret r { s with elems := s.elems - 1 }
  | .thrown s => .thrown { s with elems := s.elems - 1 }
  | o => o

/-- `l * x` (list.ipp:169-174). For the empty list, `x` is converted by `list (T item)` (list.hpp:137-138), which copies it as
the constructor with two arguments does. -/
def times (x : T) : Nat → Option Nat → St T → Out T (Option Nat)
  | 0, _, _ => .hang
  | f + 1, p, s =>
    param fails (fun s =>
      match p with
      | none => node fails early x (fun s => .ret none s) s
      | some a =>
        match s.heap[a]? with
        | some (some nd) => node fails early nd.item (times x f nd.next) s
        | _ => .ub) s

/-- `remove (l, what)` (list.ipp:212-218) with the comparison `eq` of elements. -/
def remove (eq : T → T → Bool) (what : T) : Nat → Option Nat → St T → Out T (Option Nat)
  | 0, _, _ => .hang
  | f + 1, p, s =>
    param fails (fun s =>
      match p with
      | none => .ret none s
      | some a =>
        match s.heap[a]? with
        | some (some nd) =>
          if eq nd.item what then remove eq what f nd.next s
          else node fails early nd.item (remove eq what f nd.next) s
        | _ => .ub) s

end Lolly.ListThrow
