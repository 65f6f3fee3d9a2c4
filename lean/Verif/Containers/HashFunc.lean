import Verif.Containers.HashMap

/-!
# Functions that remember their values and use themselves (Kernel/Containers/hashfunc.hpp, hashfunc.ipp)

`hashfunc_rep::apply` once more (see `RelHashMap.lean` for functions that are only functions), now with a function that may ask the
same hashfunc for values, at other arguments or at the same one, throw exceptions and catch those of the values it asks for, and
read and change variables of the program. What such a function does, and what a program does that uses the hashfunc, is a `Prog`.

Simplifications: functions of keys do not throw (see `HashThrow.lean`); the object lives as long as it is used (see C55). Depth of recursion
is bounded by a number; `hang` says that it was not enough.
-/

set_option autoImplicit false

namespace Lolly.HashFunc

/-- A program that uses a hashfunc: `K` arguments, `V` values, `σ` the variables of the program, `R` its result. -/
inductive Prog (K V σ R : Type)
  /-- return -/
  | ret (r : R)
  /-- throw an exception -/
  | throw
  /-- `F[x]`, and what is done with the value, or after an exception (`none`) has been caught; a program that does not catch it
  throws then -/
  | ask (x : K) (k : Option V → Prog K V σ R)
  /-- change the variables, and go on with what they were -/
  | act (upd : σ → σ) (k : σ → Prog K V σ R)

/-- The table `remember`, the variables, and the arguments for which `func` has been called so far. -/
structure St (K V σ : Type) where
  h : HashMap K V
  env : σ
  calls : List K

inductive Out (K V σ R : Type)
  | ret (st : St K V σ) (r : R)
  | thrown (st : St K V σ)
  | ub
  | hang

variable {K V σ R : Type}

/-- Runs a program with a way to answer queries. -/
def exec (query : K → St K V σ → Out K V σ V) : Prog K V σ R → St K V σ → Out K V σ R
  | .ret r, st => .ret st r
  | .throw, st => .thrown st
  | .act upd k, st => exec query (k st.env) { st with env := upd st.env }
  | .ask x k, st =>
    match query x st with
    | .ret st v => exec query (k (some v)) st
    | .thrown st => exec query (k none) st
    | .ub => .ub
    | .hang => .hang

variable [DecidableEq K] (hash : K → BitVec 32) (body : K → Prog K V σ V)

/-- `remember (x)= y; return y` (hashfunc.ipp:21-22). -/
def store (x : K) : Out K V σ V → Out K V σ V
  | .ret st y =>
    match st.h.set hash x y with
    | .ok h => .ret { st with h := h } y
    | _ => .ub
  | .thrown st => .thrown st
  | .ub => .ub
  | .hang => .hang

/-- `hashfunc_rep::apply` (hashfunc.ipp:16-23). -/
def apply : Nat → K → St K V σ → Out K V σ V
  | 0, _, _ => .hang
  | f + 1, x, st =>
    match st.h.contains hash x with
    | .ok true =>
      match st.h.get hash x with
      | .ok v => .ret st v
      | _ => .ub
    | .ok false => store hash x (exec (apply f) (body x) { st with calls := st.calls ++ [x] })
    | _ => .ub

/-- A program on a new hashfunc (hashfunc.hpp:28-29). -/
def run (f : Nat) (init : V) (env : σ) (p : Prog K V σ R) : Out K V σ R :=
  exec (apply hash body f) p ⟨HashMap.new init, env, []⟩

end Lolly.HashFunc
